/-
The domains of a triangle on the sphere.
-/
import Verif.Lemmas.SphericalMetric

set_option linter.unusedSectionVars false

namespace Verif

open Verif.Model Verif.Spec Verif.Props Matrix

section

variable {D : Nat}

/-- a vector scaled to length one -/
noncomputable def unitOf (c : Fin D → ℝ) : Fin D → ℝ := fun i => c i / Real.sqrt (dot c c)

theorem unitOf_spec {c : Fin D → ℝ} (hc : c ≠ 0) : normalizedNan c = some (unitOf c) ∧ OnUnitSphere (unitOf c) ∧
    ∃ s : ℝ, 0 < s ∧ unitOf c = s • c := by
  have hnn : 0 ≤ c ⬝ᵥ c := Finset.sum_nonneg fun k _ => mul_self_nonneg (c k)
  have h0 : c ⬝ᵥ c ≠ 0 := fun h => hc (dotProduct_self_eq_zero.1 h)
  have hs : 0 < Real.sqrt (dot c c) := Real.sqrt_pos.2 (lt_of_le_of_ne hnn h0.symm)
  have hn : normalizedNan c = some (unitOf c) := if_neg hs.ne'
  obtain ⟨x, hx, hu, -⟩ := normalizedNan_some hc
  rw [hn] at hx
  obtain rfl := Option.some.inj hx
  refine ⟨hn, hu, (Real.sqrt (dot c c))⁻¹, inv_pos.2 hs, ?_⟩
  funext i
  simp only [unitOf, Pi.smul_apply, smul_eq_mul]
  ring

theorem arc_smul (a b : Fin D → ℝ) {r s : ℝ} (hr : 0 < r) (hs : 0 < s) : arc (r • a) (s • b) = arc a b := by
  unfold arc
  rw [WithLp.toLp_smul, WithLp.toLp_smul, InnerProductGeometry.angle_smul_left_of_pos _ _ hr,
    InnerProductGeometry.angle_smul_right_of_pos _ _ hs]

theorem arc_comm (a b : Fin D → ℝ) : arc a b = arc b a := InnerProductGeometry.angle_comm _ _

/-- a point between two others splits the arc -/
theorem arc_split {a b : Fin D → ℝ} {α β : ℝ} (hα : 0 ≤ α) (hβ : 0 ≤ β) (h : α • a + β • b ≠ 0) :
    arc a (α • a + β • b) + arc (α • a + β • b) b = arc a b := by
  unfold arc
  have h0 : (WithLp.toLp 2 (α • a + β • b) : EuclideanSpace ℝ (Fin D)) ≠ 0 := by
    intro h'
    exact h ((WithLp.toLp_eq_zero 2).1 h')
  refine ((InnerProductGeometry.angle_eq_angle_add_angle_iff h0).2 (Or.inr ?_)).symm
  rw [Submodule.mem_span_pair]
  exact ⟨⟨α, hα⟩, ⟨β, hβ⟩, by rw [WithLp.toLp_add, WithLp.toLp_smul, WithLp.toLp_smul]; rfl⟩

theorem sphericalVolumeOf_two {a b : Fin D → ℝ} (ha : OnUnitSphere a) (hb : OnUnitSphere b) :
    sphericalVolumeOf [some a, some b] = .ok (some (arc a b)) := by
  have h1 : ([some a, some b] : List (Option (Vec ℝ D))).mapM id = some [a, b] := mapM_id_some [a, b]
  unfold sphericalVolumeOf
  rw [h1]
  simp only [bind, Except.bind]
  rw [(C63_volume_cases _).2.1 rfl]
  simp only
  show Except.ok (sphericalLength a b) = _
  rw [length_angle ha hb]
  rfl

end

theorem sphericalVolumeOf_three {a b c : E3} (h : det3 a b c ≠ 0) :
    sphericalVolumeOf [some a, some b, some c] = .ok (some (surfaceArea (sphericalTriangle a b c))) := by
  have h1 : ([some a, some b, some c] : List (Option (Vec ℝ 3))).mapM id = some [a, b, c] :=
    mapM_id_some [a, b, c]
  unfold sphericalVolumeOf
  rw [h1]
  simp only [bind, Except.bind]
  have h2 : (Matrix.of fun i : Fin [a, b, c].length => [a, b, c][i]) = Matrix.of ![a, b, c] := by
    ext i j
    fin_cases i <;> rfl
  have h3 := (C63_area ((independent_iff a b c).2 h)).2.1
  rw [show sphericalVolume (Matrix.of fun i : Fin [a, b, c].length => [a, b, c][i]) =
    sphericalVolume (Matrix.of ![a, b, c]) from congrArg _ h2, h3]

/-- the area of the triangle of three corners, from its six domains -/
theorem area_domains {a b c : E3} (hd : det3 a b c ≠ 0) {α β γ p q r s t u : ℝ} (hα : 0 < α) (hβ : 0 < β)
    (hγ : 0 < γ) (hp : 0 < p) (hq : 0 < q) (hr : 0 < r) (hs : 0 < s) (ht : 0 < t) (hu : 0 < u) {o x y z : E3}
    (ho : o = α • a + β • b + γ • c) (hx : x = p • a + q • b) (hy : y = r • b + s • c) (hz : z = t • c + u • a) :
    surfaceArea (sphericalTriangle a x o) + surfaceArea (sphericalTriangle b x o) +
      surfaceArea (sphericalTriangle b y o) + surfaceArea (sphericalTriangle c y o) +
      surfaceArea (sphericalTriangle c z o) + surfaceArea (sphericalTriangle a z o) =
    surfaceArea (sphericalTriangle a b c) := by
  have hdab : det3 a b o ≠ 0 := by
    have : det3 a b o = γ * det3 a b c := by
      rw [ho]; simp only [det3_apply, Pi.add_apply, Pi.smul_apply, smul_eq_mul]; ring
    rw [this]; exact mul_ne_zero hγ.ne' hd
  have hdbc : det3 b c o ≠ 0 := by
    have : det3 b c o = α * det3 a b c := by
      rw [ho]; simp only [det3_apply, Pi.add_apply, Pi.smul_apply, smul_eq_mul]; ring
    rw [this]; exact mul_ne_zero hα.ne' hd
  have hdca : det3 c a o ≠ 0 := by
    have : det3 c a o = β * det3 a b c := by
      rw [ho]; simp only [det3_apply, Pi.add_apply, Pi.smul_apply, smul_eq_mul]; ring
    rw [this]; exact mul_ne_zero hβ.ne' hd
  rw [area_split_inside hd hα hβ hγ, ← ho]
  have e1 := area_split_edge hdab hp hq
  have e2 := area_split_edge hdbc hr hs
  have e3 := area_split_edge hdca ht hu
  rw [← hx] at e1
  rw [← hy] at e2
  rw [← hz] at e3
  rw [triangle_swap b x o] at e1
  rw [triangle_swap c y o] at e2
  rw [triangle_swap a z o] at e3
  have f1 : sphericalTriangle o b c = sphericalTriangle b c o := (triangle_rotate o b c).symm
  have f2 : sphericalTriangle a o c = sphericalTriangle c a o := (triangle_rotate c a o).symm ▸ rfl
  rw [f1, f2, e1, e2, e3]
  ring

end Verif
