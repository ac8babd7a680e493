/-
C63: lengths, areas, circumcenters and intersections on the sphere.
-/
import Mathlib.Geometry.Euclidean.Angle.Unoriented.TriangleInequality
import Verif.Lemmas.SphericalParts
import Verif.Lemmas.Angles
import Verif.Props.Circumcenter

set_option linter.unusedSectionVars false

namespace Verif.Props

open Verif.Model Verif.Spec Matrix MeasureTheory Set

section lengths

variable {D : Nat}

theorem unit_dot_range {a b : Fin D → ℝ} (ha : OnUnitSphere a) (hb : OnUnitSphere b) :
    -1 ≤ innerProd a b ∧ innerProd a b ≤ 1 := by
  have h := abs_real_inner_le_norm (WithLp.toLp 2 a : EuclideanSpace ℝ (Fin D)) (WithLp.toLp 2 b)
  rw [norm_eq_innerProd, norm_eq_innerProd, inner_eq_innerProd, ha, hb, Real.sqrt_one, one_mul] at h
  exact abs_le.1 h

theorem length_some {a b : Fin D → ℝ} (ha : OnUnitSphere a) (hb : OnUnitSphere b) :
    sphericalLength a b = some (Real.arccos (innerProd a b)) :=
  if_pos (unit_dot_range ha hb)

theorem length_angle {a b : Fin D → ℝ} (ha : OnUnitSphere a) (hb : OnUnitSphere b) :
    sphericalLength a b = some (InnerProductGeometry.angle (WithLp.toLp 2 a : EuclideanSpace ℝ (Fin D)) (WithLp.toLp 2 b)) := by
  rw [length_some ha hb]
  unfold InnerProductGeometry.angle
  rw [norm_eq_innerProd, norm_eq_innerProd, inner_eq_innerProd, ha, hb, Real.sqrt_one, one_mul, div_one]

theorem chordSq_unit {a b : Fin D → ℝ} (ha : OnUnitSphere a) (hb : OnUnitSphere b) :
    chordSq a b = 2 - 2 * innerProd a b := by
  have : chordSq a b = innerProd a a + innerProd b b - 2 * innerProd a b := by
    unfold chordSq innerProd
    rw [Finset.mul_sum, ← Finset.sum_add_distrib, ← Finset.sum_sub_distrib]
    exact Finset.sum_congr rfl fun k _ => by ring
  rw [this, ha, hb]; ring

/-- C63: between points of the unit sphere, `edge_length` is the angle between them; it is symmetric, it
vanishes only between equal points, and the distance through the ball is twice the sine of half of it -/
theorem C63_length {a b : Fin D → ℝ} (ha : OnUnitSphere a) (hb : OnUnitSphere b) :
    ∃ l, sphericalLength a b = some l ∧ sphericalLength b a = some l ∧ IsAngle a b l ∧ (l = 0 ↔ a = b) ∧
      chordSq a b = (2 * Real.sin (l / 2)) ^ 2 := by
  obtain ⟨h1, h2⟩ := unit_dot_range ha hb
  have hcomm : innerProd b a = innerProd a b := by unfold innerProd; simp only [mul_comm]
  have hch := chordSq_unit ha hb
  refine ⟨_, length_some ha hb, by rw [length_some hb ha, hcomm], ⟨Real.arccos_nonneg _, Real.arccos_le_pi _, ?_⟩, ?_, ?_⟩
  · rw [ha, hb, Real.sqrt_one, Real.cos_arccos h1 h2]; ring
  · rw [Real.arccos_eq_zero]
    constructor
    · intro h
      have h0 : chordSq a b = 0 := by rw [hch]; linarith
      unfold chordSq at h0
      rw [Finset.sum_eq_zero_iff_of_nonneg fun k _ => sq_nonneg _] at h0
      funext k
      have := h0 k (Finset.mem_univ k)
      exact sub_eq_zero.1 (pow_eq_zero_iff (two_ne_zero) |>.1 this)
    · rintro rfl
      exact ha.ge
  · have e : Real.cos (Real.arccos (innerProd a b)) = innerProd a b := Real.cos_arccos h1 h2
    have h3 : Real.cos (2 * (Real.arccos (innerProd a b) / 2)) = innerProd a b := by
      rw [mul_div_cancel₀ _ two_ne_zero, e]
    rw [Real.cos_two_mul] at h3
    have := Real.sin_sq_add_cos_sq (Real.arccos (innerProd a b) / 2)
    rw [hch, mul_pow]
    linarith

/-- C63: no way around is shorter -/
theorem C63_triangle_inequality {a b c : Fin D → ℝ} (ha : OnUnitSphere a) (hb : OnUnitSphere b) (hc : OnUnitSphere c) :
    ∃ x y z, sphericalLength a b = some x ∧ sphericalLength b c = some y ∧ sphericalLength a c = some z ∧ z ≤ x + y :=
  ⟨_, _, _, length_angle ha hb, length_angle hb hc, length_angle ha hc,
    InnerProductGeometry.angle_le_angle_add_angle _ _ _⟩

/-- C63: vectors whose product is larger than one in size have no `edge_length`: the result is `nan` -/
theorem C63_length_nan (a b : Fin D → ℝ) : sphericalLength a b = none ↔ 1 < |innerProd a b| := by
  show (if -1 ≤ innerProd a b ∧ innerProd a b ≤ 1 then some _ else none) = none ↔ _
  rw [← not_le, abs_le]
  split_ifs with h
  · exact ⟨fun h' => by simp at h', fun h' => absurd h h'⟩
  · exact ⟨fun _ => h, fun _ => rfl⟩

end lengths

/-! ### Areas -/

theorem sphericalArea_pos {a b c : E3} (hd : det3 a b c ≠ 0) : 0 < surfaceArea (sphericalTriangle a b c) := by
  rw [sphericalTriangle_area hd]
  refine mul_pos (by norm_num) (ENNReal.toReal_pos (ne_of_gt ?_) (finite_part _))
  set d := det3 a b c
  have c1 : Continuous fun x : E3 => d * det3 x b c := by simp only [det3_apply]; fun_prop
  have c2 : Continuous fun x : E3 => d * det3 a x c := by simp only [det3_apply]; fun_prop
  have c3 : Continuous fun x : E3 => d * det3 a b x := by simp only [det3_apply]; fun_prop
  have c4 : Continuous fun x : E3 => x ⬝ᵥ x := by simp only [dot3]; fun_prop
  let U : Set E3 := {x | 0 < d * det3 x b c} ∩ {x | 0 < d * det3 a x c} ∩ {x | 0 < d * det3 a b x} ∩ {x | x ⬝ᵥ x < 1}
  have hU : IsOpen U := (((isOpen_lt continuous_const c1).inter (isOpen_lt continuous_const c2)).inter
    (isOpen_lt continuous_const c3)).inter (isOpen_lt c4 continuous_const)
  have hsub : U ⊆ ball3 ∩ cone3 a b c := by
    rintro x ⟨⟨⟨h1, h2⟩, h3⟩, h4⟩
    exact ⟨(show x ⬝ᵥ x < 1 from h4).le, (mem_cone3 hd x).2 ⟨le_of_lt h1, le_of_lt h2, le_of_lt h3⟩⟩
  refine lt_of_lt_of_le (hU.measure_pos volume ?_) (measure_mono hsub)
  set m : E3 := a + b + c with hm
  set q := m ⬝ᵥ m with hq
  have hq0 : 0 ≤ q := by
    rw [hq, dot3]; nlinarith [mul_self_nonneg (m 0), mul_self_nonneg (m 1), mul_self_nonneg (m 2)]
  have hr : 0 < 1 / (1 + q) := by positivity
  have hdd : 0 < d * d := mul_self_pos.2 hd
  refine ⟨(1 / (1 + q)) • m, ⟨⟨?_, ?_⟩, ?_⟩, ?_⟩
  · show 0 < d * det3 _ b c
    have : d * det3 ((1 / (1 + q)) • m) b c = 1 / (1 + q) * (d * d) := by
      simp only [d, hm, det3_apply, Pi.smul_apply, Pi.add_apply, smul_eq_mul]; ring
    rw [this]; positivity
  · show 0 < d * det3 a _ c
    have : d * det3 a ((1 / (1 + q)) • m) c = 1 / (1 + q) * (d * d) := by
      simp only [d, hm, det3_apply, Pi.smul_apply, Pi.add_apply, smul_eq_mul]; ring
    rw [this]; positivity
  · show 0 < d * det3 a b _
    have : d * det3 a b ((1 / (1 + q)) • m) = 1 / (1 + q) * (d * d) := by
      simp only [d, hm, det3_apply, Pi.smul_apply, Pi.add_apply, smul_eq_mul]; ring
    rw [this]; positivity
  · show (_ : E3) ⬝ᵥ _ < 1
    rw [smul_dotProduct, dotProduct_smul, smul_eq_mul, smul_eq_mul, ← hq]
    rw [show 1 / (1 + q) * (1 / (1 + q) * q) = q / (1 + q) ^ 2 by field_simp, div_lt_one (by positivity)]
    nlinarith

theorem sphericalArea_lt {a b c : E3} (hd : det3 a b c ≠ 0) : surfaceArea (sphericalTriangle a b c) < 2 * Real.pi := by
  have e : det3 a (-b) c = -det3 a b c := by simp only [det3_apply, Pi.neg_apply]; ring
  have hd' : det3 a (-b) c ≠ 0 := by rw [e]; exact neg_ne_zero.2 hd
  have hp := sphericalArea_pos hd'
  rw [sphericalTriangle_area hd'] at hp
  rw [sphericalTriangle_area hd]
  have hn : det3 a b c • (b ⨯₃ c) ≠ 0 := smul_ne_zero hd (cross_ne_zero hd)
  have hd2 : det3 b c a ≠ 0 := by rwa [det3_rotate]
  have hm : det3 a b c • (c ⨯₃ a) ≠ 0 := smul_ne_zero hd (cross_ne_zero hd2)
  have hh : volume.real (ball3 ∩ half3 (det3 a b c • (b ⨯₃ c))) = 2 / 3 * Real.pi := by
    unfold Measure.real
    rw [volume_half hn, ENNReal.toReal_ofReal (by positivity)]
  rw [part_split _ hm] at hh
  have m1 : volume.real (ball3 ∩ cone3 a b c) ≤
      volume.real (ball3 ∩ (half3 (det3 a b c • (b ⨯₃ c)) ∩ half3 (det3 a b c • (c ⨯₃ a)))) := by
    refine ENNReal.toReal_mono (finite_part _) (measure_mono (inter_subset_inter_right _ ?_))
    rw [cone3_eq hd]
    exact inter_subset_left
  have m2 : volume.real (ball3 ∩ cone3 a (-b) c) ≤
      volume.real (ball3 ∩ (half3 (det3 a b c • (b ⨯₃ c)) ∩ half3 (-(det3 a b c • (c ⨯₃ a))))) := by
    refine ENNReal.toReal_mono (finite_part _) (measure_mono (inter_subset_inter_right _ fun x hx => ?_))
    obtain ⟨h1, h2, -⟩ := (mem_cone3 hd' x).1 hx
    rw [e] at h1 h2
    rw [mem_inter_iff, mem_half_cross, mem_half_neg_cross]
    constructor
    · have : det3 x (-b) c = -det3 x b c := by simp only [det3_apply, Pi.neg_apply]; ring
      rw [this] at h1; linarith
    · have : det3 x c a = det3 a x c := det3_rotate a x c
      rw [this]; linarith
  linarith

/-- C63 (Girard's theorem): for three vectors that are not in a plane, `triangle_area_from_corners` and
`unsigned_volume` are the area of the triangle they cut from the unit sphere, more than nothing and less
than half of the sphere -/
theorem C63_area {a b c : Fin 3 → ℝ} (h : Independent3 a b c) :
    areaFromCorners ![a, b, c] = surfaceArea (sphericalTriangle a b c) ∧
      sphericalVolume (Matrix.of ![a, b, c]) = .ok (some (some (surfaceArea (sphericalTriangle a b c)))) ∧
      0 < surfaceArea (sphericalTriangle a b c) ∧ surfaceArea (sphericalTriangle a b c) < 2 * Real.pi := by
  have hd := det3_ne_zero h
  refine ⟨areaFromCorners_area hd, ?_, sphericalArea_pos hd, sphericalArea_lt hd⟩
  unfold sphericalVolume
  rw [dif_pos rfl, dif_pos rfl]
  have : (fun i j => (Matrix.of ![a, b, c]) (Fin.cast (rfl : (3 : ℕ) = 3).symm i) (Fin.cast (rfl : (3 : ℕ) = 3).symm j)) = ![a, b, c] := rfl
  rw [this, areaFromCorners_area hd, abs_of_pos (sphericalArea_pos hd)]


theorem normalizedVec_neg (v : E3) : normalizedVec (-v) = -normalizedVec v := by
  funext i
  rw [Pi.neg_apply, normalizedVec_scale, normalizedVec_scale]
  have : innerProd (-v) (-v) = innerProd v v := by unfold innerProd; simp
  rw [this, Pi.neg_apply, neg_div]

theorem normalizedVec_pos {r : ℝ} (hr : 0 < r) (v : E3) : normalizedVec (r • v) = normalizedVec v := by
  funext i
  rw [normalizedVec_scale, normalizedVec_scale]
  have : innerProd (r • v) (r • v) = r ^ 2 * innerProd v v := by
    unfold innerProd; rw [Finset.mul_sum]; exact Finset.sum_congr rfl fun k _ => by
      simp only [Pi.smul_apply, smul_eq_mul]; ring
  rw [this, Real.sqrt_mul (by positivity), Real.sqrt_sq hr.le, Pi.smul_apply, smul_eq_mul, mul_div_mul_left _ _ hr.ne']

theorem normalizedVec_zero : normalizedVec (0 : E3) = 0 := by
  funext i
  rw [normalizedVec_scale]; simp

theorem corners_cons (tri : Fin 3 → E3) : tri = ![tri 0, tri 1, tri 2] := by
  funext i; fin_cases i <;> rfl

theorem area_rotate (a b c : E3) : areaFromCorners ![b, c, a] = areaFromCorners ![a, b, c] := by
  rw [areaFromCorners_eq, areaFromCorners_eq]; ring

theorem area_swap (a b c : E3) : areaFromCorners ![b, a, c] = areaFromCorners ![a, b, c] := by
  have f : ∀ u v : E3, normalizedVec (u ⨯₃ v) = -normalizedVec (v ⨯₃ u) := fun u v => by
    rw [← normalizedVec_neg, cross_anticomm]
  rw [areaFromCorners_eq, areaFromCorners_eq, f a c, f c b, f b a]
  simp only [neg_dotProduct_neg]
  rw [dotProduct_comm (normalizedVec (c ⨯₃ a)) (normalizedVec (b ⨯₃ c)),
    dotProduct_comm (normalizedVec (b ⨯₃ c)) (normalizedVec (a ⨯₃ b)),
    dotProduct_comm (normalizedVec (a ⨯₃ b)) (normalizedVec (c ⨯₃ a))]
  ring

/-- C63: the area depends on the set of the three corners and their directions only: neither their order
nor their lengths matter, also if they are in a plane -/
theorem C63_area_invariant (tri : Fin 3 → Fin 3 → ℝ) :
    (∀ σ : Equiv.Perm (Fin 3), areaFromCorners (fun i => tri (σ i)) = areaFromCorners tri) ∧
    (∀ r : Fin 3 → ℝ, (∀ i, 0 < r i) → areaFromCorners (fun i j => r i * tri i j) = areaFromCorners tri) := by
  constructor
  · intro σ
    rw [corners_cons tri, corners_cons fun i => ![tri 0, tri 1, tri 2] (σ i)]
    have h01 : σ 0 ≠ σ 1 := fun h => absurd (σ.injective h) (by decide)
    have h02 : σ 0 ≠ σ 2 := fun h => absurd (σ.injective h) (by decide)
    have h12 : σ 1 ≠ σ 2 := fun h => absurd (σ.injective h) (by decide)
    generalize σ 0 = x at *
    generalize σ 1 = y at *
    generalize σ 2 = z at *
    generalize tri 0 = a
    generalize tri 1 = b
    generalize tri 2 = c
    fin_cases x <;> fin_cases y <;> fin_cases z <;> first | exact absurd rfl h01 | exact absurd rfl h02 | exact absurd rfl h12 | skip
    · rfl
    · show areaFromCorners ![a, c, b] = _
      rw [← area_rotate a c b, area_swap b c a, area_rotate]
    · exact area_swap a b c
    · exact area_rotate a b c
    · show areaFromCorners ![c, a, b] = _
      rw [area_rotate b c a, area_rotate]
    · show areaFromCorners ![c, b, a] = _
      rw [area_swap b c a, area_rotate]
  · intro r hr
    have f : ∀ i j, normalizedVec ((fun k => r i * tri i k : E3) ⨯₃ (fun k => r j * tri j k)) =
        normalizedVec (tri i ⨯₃ tri j) := fun i j => by
      rw [← normalizedVec_pos (mul_pos (hr i) (hr j)) (tri i ⨯₃ tri j)]
      congr 1
      funext k
      simp only [cross_apply, Pi.smul_apply, smul_eq_mul]
      fin_cases k <;> simp <;> ring
    have e : (fun i j => r i * tri i j) =
        ![fun k => r 0 * tri 0 k, fun k => r 1 * tri 1 k, fun k => r 2 * tri 2 k] := corners_cons _
    rw [e, corners_cons tri, areaFromCorners_eq, areaFromCorners_eq, ← f 1 2, ← f 2 0, ← f 0 1]
    rfl

/-- C63: rotations and reflections of the sphere keep areas -/
theorem C63_area_rotated {a b c : Fin 3 → ℝ} (h : Independent3 a b c) {Q : Matrix (Fin 3) (Fin 3) ℝ} (hQ : Q * Qᵀ = 1) :
    areaFromCorners ![Q *ᵥ a, Q *ᵥ b, Q *ᵥ c] = areaFromCorners ![a, b, c] := by
  have hd := det3_ne_zero h
  rw [areaFromCorners_area hd, areaFromCorners_area (det3_orthogonal hQ hd), area_orthogonal hQ hd]

/-- the values for corners in a plane -/
theorem unit_self {v : E3} (hv : v ≠ 0) : normalizedVec v ⬝ᵥ normalizedVec v = 1 := (normalizedVec_smul hv).2.2

/-- C63: corners in a plane.  If one corner is on the arc between the others the area is zero; if the three
arcs make up a whole great circle it is half of the sphere; two equal corners give zero, but three equal
corners give `pi / 2`. -/
theorem C63_area_flat {a b : Fin 3 → ℝ} (hab : a ⨯₃ b ≠ 0) :
    (∀ α β : ℝ, 0 < α → 0 < β → areaFromCorners ![a, fun k => α * a k + β * b k, b] = 0) ∧
    (∀ α β : ℝ, 0 < α → 0 < β → areaFromCorners ![a, b, fun k => -(α * a k + β * b k)] = 2 * Real.pi) ∧
    areaFromCorners ![a, a, b] = 0 ∧ areaFromCorners ![a, a, a] = Real.pi / 2 := by
  have hN := unit_self hab
  have fba : b ⨯₃ a = -(a ⨯₃ b) := (cross_anticomm a b).symm
  refine ⟨fun α β hα hβ => ?_, fun α β hα hβ => ?_, ?_, ?_⟩
  · have e1 : (fun k => α * a k + β * b k : E3) ⨯₃ b = α • (a ⨯₃ b) := by
      funext k; simp only [cross_apply, Pi.smul_apply, smul_eq_mul]; fin_cases k <;> simp <;> ring
    have e2 : a ⨯₃ (fun k => α * a k + β * b k : E3) = β • (a ⨯₃ b) := by
      funext k; simp only [cross_apply, Pi.smul_apply, smul_eq_mul]; fin_cases k <;> simp <;> ring
    rw [areaFromCorners_eq, e1, e2, fba, normalizedVec_pos hα, normalizedVec_pos hβ, normalizedVec_neg]
    simp only [dotProduct_neg, neg_dotProduct, hN, neg_neg, Real.arccos_one, Real.arccos_neg_one]
    ring
  · have e1 : b ⨯₃ (fun k => -(α * a k + β * b k) : E3) = α • (a ⨯₃ b) := by
      funext k; simp only [cross_apply, Pi.smul_apply, smul_eq_mul]; fin_cases k <;> simp <;> ring
    have e2 : (fun k => -(α * a k + β * b k) : E3) ⨯₃ a = β • (a ⨯₃ b) := by
      funext k; simp only [cross_apply, Pi.smul_apply, smul_eq_mul]; fin_cases k <;> simp <;> ring
    rw [areaFromCorners_eq, e1, e2, normalizedVec_pos hα, normalizedVec_pos hβ]
    simp only [hN, Real.arccos_neg_one]
    ring
  · rw [areaFromCorners_eq, cross_self, fba, normalizedVec_neg, normalizedVec_zero]
    simp only [dotProduct_neg, hN, neg_neg, Real.arccos_one, zero_dotProduct, dotProduct_zero, neg_zero, Real.arccos_zero]
    ring
  · rw [areaFromCorners_eq, cross_self, normalizedVec_zero]
    simp only [dotProduct_zero, neg_zero, Real.arccos_zero]
    ring

/-- C63: areas add up when a triangle is split at a point of an edge, and when it is split at a point
inside -/
theorem C63_area_split {a b c : Fin 3 → ℝ} (h : Independent3 a b c) :
    (∀ α β : ℝ, 0 < α → 0 < β → ∀ e : Fin 3 → ℝ, (∀ k, e k = α * a k + β * b k) →
      areaFromCorners ![a, b, c] = areaFromCorners ![a, e, c] + areaFromCorners ![e, b, c]) ∧
    (∀ α β γ : ℝ, 0 < α → 0 < β → 0 < γ → ∀ o : Fin 3 → ℝ, (∀ k, o k = α * a k + β * b k + γ * c k) →
      areaFromCorners ![a, b, c] =
        areaFromCorners ![o, b, c] + areaFromCorners ![a, o, c] + areaFromCorners ![a, b, o]) := by
  have hd := det3_ne_zero h
  constructor
  · intro α β hα hβ e he
    have e' : e = α • a + β • b := funext he
    have h1 : det3 a e c = β * det3 a b c := by simp only [det3_apply, he]; ring
    have h2 : det3 e b c = α * det3 a b c := by simp only [det3_apply, he]; ring
    have d1 : det3 a e c ≠ 0 := by rw [h1]; exact mul_ne_zero hβ.ne' hd
    have d2 : det3 e b c ≠ 0 := by rw [h2]; exact mul_ne_zero hα.ne' hd
    rw [areaFromCorners_area hd, areaFromCorners_area d1, areaFromCorners_area d2, e']
    exact area_split_edge hd hα hβ
  · intro α β γ hα hβ hγ o ho
    have o' : o = α • a + β • b + γ • c := funext ho
    have h1 : det3 o b c = α * det3 a b c := by simp only [det3_apply, ho]; ring
    have h2 : det3 a o c = β * det3 a b c := by simp only [det3_apply, ho]; ring
    have h3 : det3 a b o = γ * det3 a b c := by simp only [det3_apply, ho]; ring
    have d1 : det3 o b c ≠ 0 := by rw [h1]; exact mul_ne_zero hα.ne' hd
    have d2 : det3 a o c ≠ 0 := by rw [h2]; exact mul_ne_zero hβ.ne' hd
    have d3 : det3 a b o ≠ 0 := by rw [h3]; exact mul_ne_zero hγ.ne' hd
    rw [areaFromCorners_area hd, areaFromCorners_area d1, areaFromCorners_area d2, areaFromCorners_area d3, o']
    exact area_split_inside hd hα hβ hγ

/-- C63: what `unsigned_volume` does with other numbers of points: one for points, the length for edges, a
`ValueError` for triangles outside of space, and no result at all for four points or more -/
theorem C63_volume_cases {P D : Nat} (pts : Matrix (Fin P) (Fin D) ℝ) :
    (P = 1 → sphericalVolume pts = .ok (some (some 1))) ∧
    (∀ h : P = 2, sphericalVolume pts = .ok (some (sphericalLength (pts ⟨0, by omega⟩) (pts ⟨1, by omega⟩)))) ∧
    (P = 3 → D ≠ 3 → sphericalVolume pts = .error .valueError) ∧
    (4 ≤ P → sphericalVolume pts = .ok none) := by
  unfold sphericalVolume
  refine ⟨fun h => ?_, fun h => ?_, fun h h' => ?_, fun h => ?_⟩
  · rw [dif_neg (by omega), dif_neg (by omega), if_pos h]
  · rw [dif_neg (by omega), dif_pos h]; rfl
  · rw [dif_pos h, dif_neg h']
  · rw [dif_neg (by omega), dif_neg (by omega), if_neg (by omega)]

/-! ### The parts of a triangle around its center -/

theorem chordSq_le {x a b : Fin 3 → ℝ} (h : innerProd a a = innerProd b b) :
    chordSq x a ≤ chordSq x b ↔ innerProd x b ≤ innerProd x a := by
  have e : ∀ u : Fin 3 → ℝ, chordSq x u = innerProd x x + innerProd u u - 2 * innerProd x u := fun u => by
    unfold chordSq innerProd
    rw [Finset.mul_sum, ← Finset.sum_add_distrib, ← Finset.sum_sub_distrib]
    exact Finset.sum_congr rfl fun k _ => by ring
  rw [e, e, h]
  constructor <;> intro <;> linarith

theorem around_first {a b c : E3} (hd : det3 a b c ≠ 0) (hab : a ⬝ᵥ a = b ⬝ᵥ b) (hac : a ⬝ᵥ a = c ⬝ᵥ c)
    {α β γ : ℝ} (hα : 0 < α) (hβ : 0 < β) (hγ : 0 < γ) {o : E3} (ho : o = α • a + β • b + γ • c)
    (h1 : o ⬝ᵥ a = o ⬝ᵥ b) (h2 : o ⬝ᵥ a = o ⬝ᵥ c) :
    (areaFromCorners ![o, c, a] + areaFromCorners ![o, a, b]) / 2 = surfaceArea (onSphere (nearPart a b c)) := by
  have oi : ∀ i, o i = α * a i + β * b i + γ * c i := fun i => by rw [ho]; rfl
  have f1 : det3 a b o = γ * det3 a b c := by simp only [det3_apply, oi]; ring
  have f2 : det3 c a o = β * det3 a b c := by simp only [det3_apply, oi]; ring
  have d1 : det3 a b o ≠ 0 := by rw [f1]; exact mul_ne_zero hγ.ne' hd
  have d2 : det3 c a o ≠ 0 := by rw [f2]; exact mul_ne_zero hβ.ne' hd
  rw [nearPart_area hd hab hac hα hβ hγ ho h1 h2, ← area_rotate o c a, ← area_rotate o a b,
    areaFromCorners_area d1, areaFromCorners_area d2]
  have s1 := area_split_edge d1 one_pos one_pos
  have s2 := area_split_edge d2 one_pos one_pos
  simp only [one_smul] at s1 s2
  have i1 := area_isosceles d1 hab h1
  have i2 := area_isosceles d2 hac.symm h2.symm
  linarith

/-- C63: let the corners have the same distance from the origin and let the center be inside of the
triangle and equally far from the corners.  Then the i-th result of `triangle_areas_around_center` is the
area of the points of the triangle whose nearest corner is the i-th one. -/
theorem C63_around (p : Fin 3 → Fin 3 → ℝ) (hp : Independent3 (p 0) (p 1) (p 2)) (R : ℝ)
    (hR : ∀ i, innerProd (p i) (p i) = R) (o : Fin 3 → ℝ) (w : Fin 3 → ℝ) (hw : ∀ i, 0 < w i)
    (ho : ∀ k, o k = ∑ i, w i * p i k) (t : ℝ) (heq : ∀ i, chordSq o (p i) = t) :
    (∀ i, areasAroundCenter o p i = surfaceArea (onSphere (nearestTo p i))) ∧
      ∑ i, areasAroundCenter o p i = surfaceArea (sphericalTriangle (p 0) (p 1) (p 2)) := by
  have hd := det3_ne_zero hp
  have hdot : ∀ i j, o ⬝ᵥ p i = o ⬝ᵥ p j := fun i j => by
    have hij : innerProd (p i) (p i) = innerProd (p j) (p j) := by rw [hR, hR]
    have a1 := (chordSq_le (x := o) hij).1 (by rw [heq, heq])
    have a2 := (chordSq_le (x := o) hij.symm).1 (by rw [heq, heq])
    exact le_antisymm a2 a1
  have hlen : ∀ i j, p i ⬝ᵥ p i = p j ⬝ᵥ p j := fun i j => (hR i).trans (hR j).symm
  have ho' : o = w 0 • p 0 + w 1 • p 1 + w 2 • p 2 := funext fun k => by
    rw [ho k, Fin.sum_univ_three]; rfl
  have hnear : ∀ i, nearestTo p i = nearPart (p i) (p (i + 1)) (p (i + 2)) := fun i => by
    ext x
    have hc : cone3 (p i) (p (i + 1)) (p (i + 2)) = cone3 (p 0) (p 1) (p 2) := by
      fin_cases i
      · rfl
      · exact cone3_rotate (p 0) (p 1) (p 2)
      · exact (cone3_rotate (p 1) (p 2) (p 0)).trans (cone3_rotate (p 0) (p 1) (p 2))
    show (_ ∧ _) ↔ (_ ∧ _)
    rw [hc]
    refine and_congr_right fun _ => ?_
    have hl : ∀ j, chordSq x (p i) ≤ chordSq x (p j) ↔ x ⬝ᵥ p j ≤ x ⬝ᵥ p i := fun j => chordSq_le (hlen i j)
    simp only [hl]
    constructor
    · exact fun h => ⟨h _, h _⟩
    · rintro ⟨h1, h2⟩ j
      have : j = i ∨ j = i + 1 ∨ j = i + 2 := by clear * -; revert i j; decide
      rcases this with rfl | rfl | rfl
      · exact le_rfl
      · exact h1
      · exact h2
  have hsum : ∀ i, areasAroundCenter o p i = (areaFromCorners ![o, p (i + 2), p i] + areaFromCorners ![o, p i, p (i + 1)]) / 2 := by
    intro i
    unfold areasAroundCenter
    simp only [Fin.sum_univ_three]
    fin_cases i
    · show (areaFromCorners ![o, p 1, p 2] + areaFromCorners ![o, p 2, p 0] + areaFromCorners ![o, p 0, p 1] - areaFromCorners ![o, p 1, p 2]) / 2
        = (areaFromCorners ![o, p 2, p 0] + areaFromCorners ![o, p 0, p 1]) / 2
      ring
    · show (areaFromCorners ![o, p 1, p 2] + areaFromCorners ![o, p 2, p 0] + areaFromCorners ![o, p 0, p 1] - areaFromCorners ![o, p 2, p 0]) / 2
        = (areaFromCorners ![o, p 0, p 1] + areaFromCorners ![o, p 1, p 2]) / 2
      ring
    · show (areaFromCorners ![o, p 1, p 2] + areaFromCorners ![o, p 2, p 0] + areaFromCorners ![o, p 0, p 1] - areaFromCorners ![o, p 0, p 1]) / 2
        = (areaFromCorners ![o, p 1, p 2] + areaFromCorners ![o, p 2, p 0]) / 2
      ring
  constructor
  · intro i
    rw [hsum, hnear]
    have hdi : det3 (p i) (p (i + 1)) (p (i + 2)) ≠ 0 := by
      fin_cases i
      · exact hd
      · show det3 (p 1) (p 2) (p 0) ≠ 0
        rwa [det3_rotate]
      · show det3 (p 2) (p 0) (p 1) ≠ 0
        rwa [det3_rotate, det3_rotate]
    refine around_first hdi (hlen _ _) (hlen _ _) (hw i) (hw (i + 1)) (hw (i + 2)) ?_ (hdot _ _) (hdot _ _)
    rw [ho']
    fin_cases i
    · rfl
    · show _ = w 1 • p 1 + w 2 • p 2 + w 0 • p 0
      abel
    · show _ = w 2 • p 2 + w 0 • p 0 + w 1 • p 1
      abel
  · have := (C63_area_split hp).2 (w 0) (w 1) (w 2) (hw 0) (hw 1) (hw 2) o (fun k => by rw [ho']; rfl)
    rw [← areaFromCorners_area hd, this, Fin.sum_univ_three, hsum, hsum, hsum]
    show (areaFromCorners ![o, p 2, p 0] + areaFromCorners ![o, p 0, p 1]) / 2 +
      (areaFromCorners ![o, p 0, p 1] + areaFromCorners ![o, p 1, p 2]) / 2 +
      (areaFromCorners ![o, p 1, p 2] + areaFromCorners ![o, p 2, p 0]) / 2 = _
    rw [area_rotate (p 0) o (p 2), area_rotate o (p 0) (p 1)]
    ring


/-! ### Circumcenters -/

section centers

variable {D : Nat}

theorem normalizedNan_none (v : Fin D → ℝ) : normalizedNan v = none ↔ v = 0 := by
  have h0 : Real.sqrt (dot v v) = 0 ↔ v = 0 := by
    have hnn : 0 ≤ v ⬝ᵥ v := Finset.sum_nonneg fun k _ => mul_self_nonneg (v k)
    show Real.sqrt (v ⬝ᵥ v) = 0 ↔ _
    rw [Real.sqrt_eq_zero hnn, dotProduct_self_eq_zero]
  show (if Real.sqrt (dot v v) = 0 then none else some _) = none ↔ _
  rw [← h0]
  split_ifs with h
  · exact ⟨fun _ => h, fun _ => rfl⟩
  · exact ⟨fun h' => by simp at h', fun h' => absurd h' h⟩

theorem normalizedNan_some {v : Fin D → ℝ} (hv : v ≠ 0) :
    ∃ x, normalizedNan v = some x ∧ OnUnitSphere x ∧ 0 < Real.sqrt (innerProd v v) ∧
      ∀ y, innerProd x y = innerProd v y / Real.sqrt (innerProd v v) := by
  have hpos : 0 < innerProd v v := by
    refine lt_of_le_of_ne (Finset.sum_nonneg fun k _ => mul_self_nonneg (v k)) fun h => hv ?_
    exact dotProduct_self_eq_zero.1 h.symm
  have hs := Real.sqrt_pos.2 hpos
  have key : ∀ y : Fin D → ℝ, innerProd (fun i => v i / Real.sqrt (innerProd v v)) y = innerProd v y / Real.sqrt (innerProd v v) :=
    fun y => by
      unfold innerProd
      rw [Finset.sum_div]
      exact Finset.sum_congr rfl fun k _ => by ring
  refine ⟨_, if_neg hs.ne', ?_, hs, key⟩
  show innerProd (fun i => v i / Real.sqrt (innerProd v v)) (fun i => v i / Real.sqrt (innerProd v v)) = 1
  rw [key]
  have : innerProd v (fun i => v i / Real.sqrt (innerProd v v)) = innerProd v v / Real.sqrt (innerProd v v) := by
    unfold innerProd
    rw [Finset.sum_div]
    exact Finset.sum_congr rfl fun k _ => by ring
  rw [this, div_div, Real.mul_self_sqrt hpos.le, div_self hpos.ne']

theorem innerProd_comm' (a b : Fin D → ℝ) : innerProd a b = innerProd b a := by
  unfold innerProd; simp only [mul_comm]

/-- C63: the `edge_circumcenter` of two points of the sphere is the middle of the arc between them; only
opposite points have none (the result is `nan`) -/
theorem C63_midpoint {a b : Fin D → ℝ} (ha : OnUnitSphere a) (hb : OnUnitSphere b) :
    ((∀ k, b k = -a k) → edgeCircumcenter (Matrix.of ![a, b]) = .ok none) ∧
    (¬ (∀ k, b k = -a k) → ∃ m l, edgeCircumcenter (Matrix.of ![a, b]) = .ok (some m) ∧ OnUnitSphere m ∧
      sphericalLength a b = some l ∧ sphericalLength a m = some (l / 2) ∧ sphericalLength m b = some (l / 2)) := by
  have e : (fun j => ∑ i, (Matrix.of ![a, b]) i j) = a + b := by
    funext j; rw [Fin.sum_univ_two]; rfl
  have hec : edgeCircumcenter (Matrix.of ![a, b]) = .ok (normalizedNan (a + b)) := by
    unfold edgeCircumcenter
    rw [if_pos rfl, e]
  constructor
  · intro h
    rw [hec, (normalizedNan_none _).2]
    funext k
    rw [Pi.add_apply, h k, Pi.zero_apply]; ring
  · intro h
    have hv : a + b ≠ 0 := fun h0 => h fun k => by
      have := congrFun h0 k
      rw [Pi.add_apply, Pi.zero_apply] at this
      linarith
    obtain ⟨m, hm, hu, hs, hdot⟩ := normalizedNan_some hv
    obtain ⟨r1, r2⟩ := unit_dot_range ha hb
    set c := innerProd a b with hc
    have hsum : innerProd (a + b) (a + b) = 2 + 2 * c := by
      have : innerProd (a + b) (a + b) = innerProd a a + innerProd b b + 2 * innerProd a b := by
        unfold innerProd
        rw [Finset.mul_sum, ← Finset.sum_add_distrib, ← Finset.sum_add_distrib]
        exact Finset.sum_congr rfl fun k _ => by simp only [Pi.add_apply]; ring
      rw [this, ha, hb]; ring
    have ea : innerProd (a + b) a = 1 + c := by
      have : innerProd (a + b) a = innerProd a a + innerProd a b := by
        unfold innerProd
        rw [← Finset.sum_add_distrib]
        exact Finset.sum_congr rfl fun k _ => by simp only [Pi.add_apply]; ring
      rw [this, ha]
    have eb : innerProd (a + b) b = 1 + c := by
      have : innerProd (a + b) b = innerProd a b + innerProd b b := by
        unfold innerProd
        rw [← Finset.sum_add_distrib]
        exact Finset.sum_congr rfl fun k _ => by simp only [Pi.add_apply]; ring
      rw [this, hb]; ring
    rw [hsum] at hs hdot
    have hcos : (1 + c) / Real.sqrt (2 + 2 * c) = Real.cos (Real.arccos c / 2) := by
      rw [Real.cos_half (by linarith [Real.arccos_nonneg c, Real.pi_pos]) (Real.arccos_le_pi c), Real.cos_arccos r1 r2]
      rw [show (2 + 2 * c) = (1 + c) / 2 * 2 ^ 2 by ring, Real.sqrt_mul (by linarith), Real.sqrt_sq (by norm_num)]
      have hp : 0 < 1 + c := by
        have := Real.sqrt_pos.1 hs
        linarith
      have hq : 0 < Real.sqrt ((1 + c) / 2) := Real.sqrt_pos.2 (by linarith)
      rw [div_eq_iff (by positivity)]
      have := Real.mul_self_sqrt (show 0 ≤ (1 + c) / 2 by linarith)
      linear_combination (-2) * this
    have hhalf : Real.arccos (Real.cos (Real.arccos c / 2)) = Real.arccos c / 2 :=
      Real.arccos_cos (by linarith [Real.arccos_nonneg c]) (by linarith [Real.arccos_le_pi c, Real.arccos_nonneg c])
    refine ⟨m, Real.arccos c, by rw [hec, hm], hu, length_some ha hb, ?_, ?_⟩
    · rw [length_some ha hu, innerProd_comm', hdot, ea, hcos, hhalf]
    · rw [length_some hu hb, hdot, eb, hcos, hhalf]

/-- the product of the euclidian circumcenter with points of the sphere -/
theorem center_product {P : Nat} {pts : Fin P → Fin D → ℝ} (hu : ∀ i, OnUnitSphere (pts i)) {c : Fin D → ℝ}
    (hc : IsCenter pts 0 c) : ∀ i, innerProd c (pts i) = innerProd c c := by
  obtain ⟨⟨y, hy1, hy⟩, hp⟩ := hc
  have hpow : ∀ i, power c (pts i) 0 = innerProd c c + 1 - 2 * innerProd c (pts i) := fun i => by
    rw [← hu i]
    unfold power innerProd
    rw [Finset.mul_sum, ← Finset.sum_add_distrib, ← Finset.sum_sub_distrib, sub_zero]
    exact Finset.sum_congr rfl fun k _ => by ring
  have heq : ∀ i j, innerProd c (pts i) = innerProd c (pts j) := fun i j => by
    have := hp i j
    simp only [Pi.zero_apply] at this
    rw [hpow, hpow] at this
    linarith
  intro i
  have : innerProd c c = ∑ j, y j * innerProd c (pts j) := by
    unfold innerProd
    simp only [Finset.mul_sum]
    rw [Finset.sum_comm]
    refine Finset.sum_congr rfl fun k _ => ?_
    calc c k * c k = c k * ∑ j, y j * pts j k := by rw [← hy k]
      _ = _ := by rw [Finset.mul_sum]; exact Finset.sum_congr rfl fun j _ => by ring
  rw [this, Finset.sum_congr rfl fun j _ => by rw [heq j i], ← Finset.sum_mul, hy1, one_mul]

/-- C63: the `circumcenter` of three or more points of the sphere, in any dimension.  With `c` their
euclidian circumcenter, the result is `nan` if `c` is the origin.  Otherwise it is a point of the sphere
that has the same product with all corners, and a positive one; and it is nearer to the corners than any
other point of the sphere that has the same product with all of them. -/
theorem C63_circumcenter {P : Nat} (hP : 2 ≤ P)
    (eigh : Matrix (Fin (P + 2)) (Fin (P + 2)) ℝ → Eigh (P + 2) ℝ) (ratio : ℝ)
    (hE : ∀ M, Mᵀ = M → IsEigh M (eigh M).v (eigh M).w)
    (batch : List (Matrix (Fin (P + 1)) (Fin D) ℝ)) (hne : batch ≠ [])
    (hw : EigenvaluesWithin ratio (batch.map fun b => centred fun i => b i))
    (hu : ∀ pts ∈ batch, ∀ i, OnUnitSphere (pts i)) :
    ∃ out, sphericalCircumcenter eigh ratio batch = .ok out ∧ out.length = batch.length ∧
      ∀ (i : Nat) pts x, batch[i]? = some pts → out[i]? = some x →
        ∀ c, IsCenter (fun i => pts i) 0 c →
          (c = 0 → x = none) ∧
          (c ≠ 0 → ∃ o t, x = some o ∧ OnUnitSphere o ∧ 0 < t ∧ (∀ k, innerProd o (pts k) = t) ∧
            ∀ u s, OnUnitSphere u → (∀ k, innerProd u (pts k) = s) → u ≠ o → s < t) := by
  obtain ⟨out, h1, h2, h3⟩ := C57_circumcenter eigh ratio hE batch hne hw
  refine ⟨out.map normalizedNan, ?_, by rw [List.length_map, h2], fun i pts x hi hx c hc => ?_⟩
  · unfold sphericalCircumcenter
    rw [if_neg (by omega), dif_neg (by omega), h1]
    rfl
  · rw [List.getElem?_map] at hx
    obtain ⟨z, hz, rfl⟩ := Option.map_eq_some_iff.1 hx
    have hzc := h3 i pts z hi hz c hc
    subst hzc
    have hunit := hu pts (List.mem_of_getElem? hi)
    refine ⟨fun h0 => (normalizedNan_none _).2 h0, fun h0 => ?_⟩
    obtain ⟨o, ho, hou, hs, hdot⟩ := normalizedNan_some h0
    have hprod := center_product hunit hc
    have hzz : 0 < innerProd z z := Real.sqrt_pos.1 hs
    refine ⟨o, Real.sqrt (innerProd z z), ho, hou, hs, fun k => ?_, fun u s huu hus hne' => ?_⟩
    · rw [hdot, hprod k, div_eq_iff hs.ne', Real.mul_self_sqrt hzz.le]
    · -- the product with the corners is the product with their circumcenter
      obtain ⟨⟨y, hy1, hy⟩, -⟩ := hc
      have huz : innerProd z u = s := by
        have : innerProd z u = ∑ j, y j * innerProd u (pts j) := by
          unfold innerProd
          simp only [Finset.mul_sum]
          rw [Finset.sum_comm]
          refine Finset.sum_congr rfl fun k _ => ?_
          rw [hy k, Finset.sum_mul]
          exact Finset.sum_congr rfl fun j _ => by ring
        rw [this, Finset.sum_congr rfl fun j _ => by rw [hus j], ← Finset.sum_mul, hy1, one_mul]
      have hou' : innerProd o u = s / Real.sqrt (innerProd z z) := by rw [hdot, huz]
      have hlt : innerProd o u < 1 := by
        refine lt_of_le_of_ne (unit_dot_range hou huu).2 fun h => hne' ?_
        obtain ⟨l, hl, -, -, hl0, -⟩ := C63_length hou huu
        rw [length_some hou huu, h, Real.arccos_one] at hl
        exact (hl0.1 (Option.some.inj hl).symm).symm
      rw [hou', div_lt_one hs] at hlt
      exact hlt

/-- C63: a point is its own circumcenter, and for edges the result is `edge_circumcenter` -/
theorem C63_circumcenter_small (ratio : ℝ) :
    (∀ (eigh : Matrix (Fin 2) (Fin 2) ℝ → Eigh 2 ℝ) (batch : List (Matrix (Fin 1) (Fin D) ℝ)),
      sphericalCircumcenter eigh ratio batch = .ok (batch.map fun pts => some (pts 0))) ∧
    (∀ (eigh : Matrix (Fin 3) (Fin 3) ℝ → Eigh 3 ℝ) (batch : List (Matrix (Fin 2) (Fin D) ℝ)),
      sphericalCircumcenter eigh ratio batch = batch.mapM edgeCircumcenter) :=
  ⟨fun _ _ => rfl, fun _ _ => rfl⟩

end centers

/-- C63: `triangle_circumcenter`, which is not used by `circumcenter`, returns the point of the sphere that
is equally far from all corners on the wrong side if the corners are in counterclockwise order: its
products with the corners are negative.  For clockwise corners they are positive. -/
theorem C63_triangle_circumcenter {a b c : Fin 3 → ℝ} (h : Independent3 a b c) :
    ∃ o t, triangleCircumcenter (Matrix.of ![a, b, c]) = .ok (some o) ∧ OnUnitSphere o ∧
      innerProd o a = t ∧ innerProd o b = t ∧ innerProd o c = t ∧
      (0 < (Matrix.of ![a, b, c]).det → t < 0) ∧ ((Matrix.of ![a, b, c]).det < 0 → 0 < t) := by
  have hd := det3_ne_zero h
  have hdet : (Matrix.of ![a, b, c]).det = det3 a b c := by
    rw [det_fin_three, det3_apply]; simp; ring
  set v : E3 := cross (b - c) (a - b) with hv
  have hdotv : ∀ x : E3, innerProd v x = -(det3 x a b + det3 x b c + det3 x c a) := fun x => by
    rw [innerProd_eq_dotProduct, hv, cross_eq, dot3, cross_apply]
    simp only [det3_apply, Pi.sub_apply]
    simp
    ring
  have va : innerProd v a = -det3 a b c := by rw [hdotv]; simp only [det3_apply]; ring
  have vb : innerProd v b = -det3 a b c := by rw [hdotv]; simp only [det3_apply]; ring
  have vc : innerProd v c = -det3 a b c := by rw [hdotv]; simp only [det3_apply]; ring
  have hv0 : v ≠ 0 := fun h0 => hd (by
    have := va
    rw [h0] at this
    unfold innerProd at this
    simp at this
    linarith)
  obtain ⟨o, ho, hu, hs, hdot⟩ := normalizedNan_some hv0
  refine ⟨o, -det3 a b c / Real.sqrt (innerProd v v), ?_, hu, by rw [hdot, va], by rw [hdot, vb], by rw [hdot, vc], ?_, ?_⟩
  · rw [← ho]; rfl
  · intro hp
    rw [hdet] at hp
    exact div_neg_of_neg_of_pos (by linarith) hs
  · intro hp
    rw [hdet] at hp
    exact div_pos (by linarith) hs

/-! ### Intersections -/

/-- C63: `intersect_edges` returns a point of the sphere on both great circles.  If the arcs cross at `x`,
it is `x` if the second arc ends on the left of the first one, and the point opposite to `x` if it ends on
the right. -/
theorem C63_intersect (s0 e0 s1 e1 : Fin 3 → ℝ) :
    (∀ y, intersectEdges s0 e0 s1 e1 = some y → OnUnitSphere y ∧
      ¬ Independent3 s0 e0 y ∧ ¬ Independent3 s1 e1 y) ∧
    (∀ (x : Fin 3 → ℝ) (u v s t : ℝ), 0 < u → 0 < v → 0 < s → 0 < t → OnUnitSphere x →
      (∀ k, x k = s * s0 k + t * e0 k) → (∀ k, x k = u * s1 k + v * e1 k) →
      (0 < (Matrix.of ![s0, e0, e1]).det → intersectEdges s0 e0 s1 e1 = some x) ∧
      ((Matrix.of ![s0, e0, e1]).det < 0 → intersectEdges s0 e0 s1 e1 = some fun k => -x k) ∧
      ((Matrix.of ![s0, e0, e1]).det = 0 → intersectEdges s0 e0 s1 e1 = none)) := by
  have hdet : (Matrix.of ![s0, e0, e1]).det = det3 s0 e0 e1 := by
    rw [det_fin_three, det3_apply]; simp; ring
  set w : E3 := cross (cross s0 e0) (cross s1 e1) with hw
  constructor
  · intro y hy
    have hw0 : w ≠ 0 := fun h0 => by
      have : normalizedNan w = none := (normalizedNan_none w).2 h0
      have hy' : normalizedNan w = some y := hy
      rw [this] at hy'
      cases hy'
    obtain ⟨o, ho, hu, hs, hdot⟩ := normalizedNan_some hw0
    have hyo : y = o := Option.some.inj (hy.symm.trans ho)
    subst hyo
    have k0 : det3 s0 e0 y = 0 := by
      have e : det3 s0 e0 y = innerProd y (cross s0 e0) := by
        rw [innerProd_eq_dotProduct, cross_eq, ← det3_rotate, ← det3_rotate]; rfl
      have z : innerProd w (cross s0 e0) = 0 := by
        rw [innerProd_eq_dotProduct, hw, cross_eq, cross_eq, cross_eq, dotProduct_comm]
        exact dot_self_cross _ _
      rw [e, hdot, z, zero_div]
    have k1 : det3 s1 e1 y = 0 := by
      have e : det3 s1 e1 y = innerProd y (cross s1 e1) := by
        rw [innerProd_eq_dotProduct, cross_eq, ← det3_rotate, ← det3_rotate]; rfl
      have z : innerProd w (cross s1 e1) = 0 := by
        rw [innerProd_eq_dotProduct, hw, cross_eq, cross_eq, cross_eq, dotProduct_comm]
        exact dot_cross_self _ _
      rw [e, hdot, z, zero_div]
    exact ⟨hu, fun h => det3_ne_zero h k0, fun h => det3_ne_zero h k1⟩
  · intro x u v s t hu hv hs ht hx hx0 hx1
    have hflat : u * det3 s0 e0 s1 + v * det3 s0 e0 e1 = 0 := by
      have z : det3 s0 e0 x = 0 := by simp only [det3_apply, hx0]; ring
      have : det3 s0 e0 x = u * det3 s0 e0 s1 + v * det3 s0 e0 e1 := by simp only [det3_apply, hx1]; ring
      rw [← this, z]
    have hwx : ∀ k, u * w k = det3 s0 e0 e1 * x k := fun k => by
      have hwk : w k = det3 s0 e0 e1 * s1 k - det3 s0 e0 s1 * e1 k := by
        rw [hw, cross_eq, cross_eq, cross_eq]
        simp only [cross_apply, det3_apply]
        fin_cases k <;> simp <;> ring
      rw [hwk, hx1 k]
      linear_combination (-e1 k) * hflat
    have hwk : w = (det3 s0 e0 e1 / u) • x := funext fun k => by
      rw [Pi.smul_apply, smul_eq_mul, div_mul_eq_mul_div, eq_div_iff hu.ne', ← hwx k]; ring
    have hww : Real.sqrt (dot w w) = |det3 s0 e0 e1 / u| := by
      have : dot w w = (det3 s0 e0 e1 / u) ^ 2 := by
        rw [hwk, dot_eq_dotProduct, smul_dotProduct, dotProduct_smul, smul_eq_mul, smul_eq_mul]
        have hx' : x ⬝ᵥ x = 1 := hx
        rw [hx']; ring
      rw [this, Real.sqrt_sq_eq_abs]
    rw [hdet]
    have hI : intersectEdges s0 e0 s1 e1 = if Real.sqrt (dot w w) = 0 then none else some fun i => w i / Real.sqrt (dot w w) := rfl
    refine ⟨fun hp => ?_, fun hn => ?_, fun h0 => ?_⟩
    · have hq : 0 < det3 s0 e0 e1 / u := div_pos hp hu
      rw [hI, hww, abs_of_pos hq, if_neg hq.ne']
      congr 1
      funext k
      rw [hwk, Pi.smul_apply, smul_eq_mul, mul_div_cancel_left₀ _ hq.ne']
    · have hq : det3 s0 e0 e1 / u < 0 := div_neg_of_neg_of_pos hn hu
      rw [hI, hww, abs_of_neg hq, if_neg (neg_ne_zero.2 hq.ne)]
      congr 1
      funext k
      rw [hwk, Pi.smul_apply, smul_eq_mul, div_neg, mul_div_cancel_left₀ _ hq.ne]
    · rw [hI, hww, h0, zero_div, abs_zero, if_pos rfl]


/-! ### Concrete cases -/

/-- the triangle between the three axes -/
def octant : Fin 3 → Fin 3 → ℝ := ![![1, 0, 0], ![0, 1, 0], ![0, 0, 1]]

theorem octant_det : det3 (octant 0) (octant 1) (octant 2) = 1 := by
  rw [det3_apply]; simp [octant]

theorem octant_independent : Independent3 (octant 0) (octant 1) (octant 2) :=
  (independent_iff _ _ _).2 (by rw [octant_det]; norm_num)

theorem octant_unit (i : Fin 3) : OnUnitSphere (octant i) := by
  show innerProd _ _ = 1
  fin_cases i <;> simp [innerProd, octant, Fin.sum_univ_three]

/-- an eighth of the sphere -/
example : surfaceArea (sphericalTriangle (octant 0) (octant 1) (octant 2)) = Real.pi / 2 := by
  rw [← (C63_area octant_independent).1, areaFromCorners_eq]
  have h : ∀ u v : E3, u ⬝ᵥ v = 0 → normalizedVec u ⬝ᵥ normalizedVec v = 0 := fun u v huv => by
    rw [dot3] at huv ⊢
    simp only [normalizedVec_scale]
    rw [div_mul_div_comm, div_mul_div_comm, div_mul_div_comm, ← add_div, ← add_div, huv, zero_div]
  rw [h, h, h]
  · rw [neg_zero, Real.arccos_zero]; ring
  all_goals rw [dot3]; simp [cross_apply, octant]

/-- a quarter of a great circle -/
example : sphericalLength (octant 0) (octant 1) = some (Real.pi / 2) := by
  rw [length_some (octant_unit 0) (octant_unit 1)]
  have : innerProd (octant 0) (octant 1) = 0 := by simp [innerProd, octant, Fin.sum_univ_three]
  rw [this, Real.arccos_zero]

/-- the parts of the octant around its center -/
example (i : Fin 3) : areasAroundCenter (fun _ => 1) octant i = surfaceArea (onSphere (nearestTo octant i)) := by
  refine (C63_around octant octant_independent 1 octant_unit (fun _ => 1) (fun _ => 1) (fun _ => one_pos) (fun k => ?_) 2
    (fun i => ?_)).1 i
  · fin_cases k <;> simp [octant, Fin.sum_univ_three]
  · fin_cases i <;> simp [chordSq, octant, Fin.sum_univ_three] <;> norm_num

/-- a vector that is too long has no length from itself -/
example : sphericalLength (D := 1) (fun _ => 2) (fun _ => 2) = none := by
  rw [C63_length_nan]
  simp [innerProd]
  norm_num

/-- the middle between two axes -/
example : ∃ m, edgeCircumcenter (Matrix.of ![octant 0, octant 1]) = .ok (some m) ∧ OnUnitSphere m ∧
    sphericalLength (octant 0) m = some (Real.pi / 2 / 2) := by
  obtain ⟨m, l, h1, h2, h3, h4, -⟩ := (C63_midpoint (octant_unit 0) (octant_unit 1)).2 fun h => by
    have := h 0
    simp [octant] at this
  refine ⟨m, h1, h2, ?_⟩
  rw [length_some (octant_unit 0) (octant_unit 1)] at h3
  have : innerProd (octant 0) (octant 1) = 0 := by simp [innerProd, octant, Fin.sum_univ_three]
  rw [this, Real.arccos_zero] at h3
  rw [h4, ← Option.some.inj h3]

/-- the eigenvalues of the octant are 2 and the square roots of 3 -/
theorem octant_within : EigenvaluesWithin (10 ^ 6) [centred octant] := by
  have key : ∀ μ : ℝ, BorderedEigenvalue (centred octant) μ → 1 ≤ |μ| ∧ |μ| ≤ 4 := by
    rintro μ ⟨y, l, hne, hrow, hlast⟩
    have h0 := hrow 0
    have h1 := hrow 1
    have h2 := hrow 2
    simp [Fin.sum_univ_three, centred, octant] at h0 h1 h2 hlast
    have d01 : (μ - 2) * (y 0 - y 1) = 0 := by linear_combination h1 - h0
    have d12 : (μ - 2) * (y 1 - y 2) = 0 := by linear_combination h2 - h1
    rcases mul_eq_zero.1 d01 with h | h
    · rw [sub_eq_zero.1 h]
      norm_num
    rcases mul_eq_zero.1 d12 with h' | h'
    · rw [sub_eq_zero.1 h']
      norm_num
    have e01 : y 0 = y 1 := sub_eq_zero.1 h
    have e12 : y 1 = y 2 := sub_eq_zero.1 h'
    have hs : l * (μ * μ - 3) = 0 := by
      linear_combination -h0 - h1 - h2 - μ * hlast
    rcases mul_eq_zero.1 hs with h' | h'
    · exfalso
      rw [h', mul_zero] at hlast
      have : y 2 = 0 := by linarith
      rcases hne with hn | hn
      · apply hn
        funext i
        fin_cases i
        · exact (e01.trans e12).trans this
        · exact e12.trans this
        · exact this
      · exact hn h'
    · have : |μ| * |μ| = 3 := by rw [abs_mul_abs_self]; linarith
      constructor <;> nlinarith [abs_nonneg μ]
  intro p hp q hq μ ν hμ hν _
  rw [List.mem_singleton] at hp hq
  subst hp
  subst hq
  have := (key μ hμ).1
  have := (key ν hν).2
  nlinarith

/-- the center of the octant is equally far from the axes -/
example : ∃ eigh o t, sphericalCircumcenter eigh (10 ^ 6) [Matrix.of octant] = .ok [some o] ∧ OnUnitSphere o ∧
    0 < t ∧ ∀ k, innerProd o (octant k) = t := by
  obtain ⟨eigh, hE⟩ := exists_eigh_function 4
  obtain ⟨out, h1, h2, h3⟩ := C63_circumcenter (D := 3) le_rfl eigh (10 ^ 6) hE [Matrix.of octant] (by simp)
    octant_within (fun pts hp i => by rw [List.mem_singleton] at hp; subst hp; exact octant_unit i)
  obtain ⟨x, rfl⟩ := List.length_eq_one_iff.1 h2
  have hc : IsCenter (fun i => octant i) 0 (fun _ => 1 / 3) := by
    refine ⟨⟨fun _ => 1 / 3, by simp, fun j => ?_⟩, fun i j => ?_⟩
    · fin_cases j <;> simp [Fin.sum_univ_three, octant]
    · fin_cases i <;> fin_cases j <;> simp [power, Fin.sum_univ_three, octant] <;> ring
  obtain ⟨o, t, rfl, h5, h6, h7, -⟩ := (h3 0 _ x rfl rfl _ hc).2 fun h => by
    have := congrFun h 0
    norm_num at this
  exact ⟨eigh, o, t, h1, h5, h6, h7⟩

/-- the axes are in counterclockwise order: `triangle_circumcenter` is on the other side -/
example : ∃ o t, triangleCircumcenter (Matrix.of octant) = .ok (some o) ∧ innerProd o (octant 0) = t ∧ t < 0 := by
  obtain ⟨o, t, h1, -, h2, -, -, h3, -⟩ := C63_triangle_circumcenter octant_independent
  refine ⟨o, t, ?_, h2, h3 ?_⟩
  · rw [← h1]; congr 2
  · rw [det_fin_three]; simp [octant]

/-- arcs that cross: the result is the point opposite to where they do -/
example : intersectEdges ![1, 0, 0] ![0, 1, 0] ![3 / 5, 4 / 5, 1] ![3 / 5, 4 / 5, -1] = some fun k => -(![3 / 5, 4 / 5, 0] : Fin 3 → ℝ) k := by
  refine ((C63_intersect _ _ _ _).2 ![3 / 5, 4 / 5, 0] (1 / 2) (1 / 2) (3 / 5) (4 / 5) (by norm_num) (by norm_num) (by norm_num)
    (by norm_num) ?_ (fun k => ?_) (fun k => ?_)).2.1 ?_
  · show innerProd _ _ = 1
    simp [innerProd, Fin.sum_univ_three]; norm_num
  · fin_cases k <;> simp
  · fin_cases k <;> simp <;> norm_num
  · rw [det_fin_three]; simp

end Verif.Props
