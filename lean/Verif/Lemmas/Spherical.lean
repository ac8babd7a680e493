/-
The area of spherical triangles.
-/
import Verif.Spec.Spherical
import Verif.Model.Spherical
import Verif.Lemmas.Girard
namespace Verif
open MeasureTheory Set Matrix Spec

theorem norm_sq_E (y : EuclideanSpace ℝ (Fin 3)) : ‖y‖ ^ 2 = (fun i => y i) ⬝ᵥ (fun i => y i) := by
  rw [EuclideanSpace.norm_sq_eq, dot3, Fin.sum_univ_three]
  simp only [Real.norm_eq_abs, sq_abs]
  ring

/-- the area on the sphere is three times the volume of the cone over it -/
theorem surfaceArea_cone {C : Set (Fin 3 → ℝ)} (hC : MeasurableSet C)
    (hs : ∀ (r : ℝ) (x : Fin 3 → ℝ), 0 < r → (r • x ∈ C ↔ x ∈ C)) :
    surfaceArea (onSphere C) = 3 * volume.real (ball3 ∩ C) := by
  have hf : Measurable fun y : EuclideanSpace ℝ (Fin 3) => WithLp.ofLp y :=
    (PiLp.volume_preserving_ofLp (Fin 3)).measurable
  have hm : MeasurableSet (onSphere C) := (hf.comp measurable_subtype_coe) hC
  unfold surfaceArea Measure.real
  rw [Measure.toSphere_apply' _ hm, ENNReal.toReal_mul]
  have hdim : Module.finrank ℝ (EuclideanSpace ℝ (Fin 3)) = 3 := by simp
  rw [hdim]
  congr 1
  congr 1
  rw [← (PiLp.volume_preserving_ofLp (Fin 3)).measure_preimage (measurableSet_ball3.inter hC).nullMeasurableSet]
  refine measure_congr ?_
  have h1 : ∀ᵐ y : EuclideanSpace ℝ (Fin 3), y ∉ Metric.sphere (0 : EuclideanSpace ℝ (Fin 3)) 1 := by
    exact measure_eq_zero_iff_ae_notMem.1
      (Measure.addHaar_sphere (volume : Measure (EuclideanSpace ℝ (Fin 3))) 0 1)
  have h2 : ∀ᵐ y : EuclideanSpace ℝ (Fin 3), y ≠ 0 := by
    rw [ae_iff]
    simp
  filter_upwards [h1, h2] with y hy1 hy0
  refine propext ⟨?_, ?_⟩
  · intro h
    obtain ⟨r, hr, z, ⟨w, hw, rfl⟩, hz⟩ := Set.mem_smul.1 h
    have hy : y = r • (w : EuclideanSpace ℝ (Fin 3)) := hz.symm
    refine ⟨?_, ?_⟩
    · show (fun i => y i) ⬝ᵥ (fun i => y i) ≤ 1
      rw [← norm_sq_E, hy, norm_smul, mem_sphere_zero_iff_norm.1 w.2, mul_one, Real.norm_eq_abs, abs_of_pos hr.1]
      nlinarith [hr.1, hr.2]
    · show (fun i => y i) ∈ C
      have : (fun i => y i) = r • fun i => w.1 i := by rw [hy]; rfl
      rw [this, hs r _ hr.1]
      exact hw
  · rintro ⟨hb, hc⟩
    have hb : (fun i => y i) ⬝ᵥ (fun i => y i) ≤ 1 := hb
    have hc : (fun i => y i) ∈ C := hc
    rw [← norm_sq_E] at hb
    have hn : 0 < ‖y‖ := norm_pos_iff.2 hy0
    have hle : ‖y‖ ≤ 1 := by nlinarith
    have hlt : ‖y‖ < 1 := lt_of_le_of_ne hle fun h => hy1 (mem_sphere_zero_iff_norm.2 h)
    refine Set.mem_smul.2 ⟨‖y‖, ⟨hn, hlt⟩, (‖y‖⁻¹) • y, ⟨⟨(‖y‖⁻¹) • y, ?_⟩, ?_, rfl⟩, ?_⟩
    · rw [mem_sphere_zero_iff_norm, norm_smul, norm_inv, norm_norm, inv_mul_cancel₀ hn.ne']
    · show (fun i => (‖y‖⁻¹ • y) i) ∈ C
      have : (fun i => (‖y‖⁻¹ • y) i) = ‖y‖⁻¹ • fun i => y i := rfl
      rw [this, hs _ _ (inv_pos.2 hn)]
      exact hc
    · exact smul_inv_smul₀ hn.ne' y

/-! ### Cones -/

theorem dot_eq_dotProduct {D : Nat} (u v : Fin D → ℝ) : Model.dot u v = u ⬝ᵥ v := rfl

theorem innerProd_eq_dotProduct {D : Nat} (u v : Fin D → ℝ) : innerProd u v = u ⬝ᵥ v := rfl

theorem cross_eq (u v : E3) : Model.cross u v = u ⨯₃ v := by
  rw [cross_apply]; rfl

/-- the determinant of three vectors -/
def det3 (a b c : E3) : ℝ := a ⬝ᵥ (b ⨯₃ c)

theorem det3_apply (a b c : E3) : det3 a b c = a 0 * (b 1 * c 2 - b 2 * c 1) + a 1 * (b 2 * c 0 - b 0 * c 2) +
    a 2 * (b 0 * c 1 - b 1 * c 0) := by
  unfold det3
  rw [dot3, cross_apply]
  simp

theorem det3_rotate (a b c : E3) : det3 b c a = det3 a b c := by
  simp only [det3_apply]; ring

theorem det3_swap (a b c : E3) : det3 b a c = -det3 a b c := by
  simp only [det3_apply]; ring

/-- Cramer's rule -/
theorem cramer3 (a b c x : E3) (i : Fin 3) :
    det3 a b c * x i = det3 x b c * a i + det3 a x c * b i + det3 a b x * c i := by
  simp only [det3_apply]
  fin_cases i <;> simp <;> ring

theorem det3_ne_zero {a b c : E3} (h : Independent3 a b c) : det3 a b c ≠ 0 := by
  intro h0
  -- a combination with the coefficients of each coordinate
  have key : ∀ x : E3, det3 x b c = 0 ∧ det3 a x c = 0 ∧ det3 a b x = 0 := by
    intro x
    have := h (det3 x b c) (det3 a x c) (det3 a b x) fun i => by rw [← cramer3, h0, zero_mul]
    exact this
  have hbc : b ⨯₃ c = 0 := by
    have := (key (b ⨯₃ c)).1
    exact dotProduct_self_eq_zero.1 this
  have hca : c ⨯₃ a = 0 := by
    have := (key (c ⨯₃ a)).2.1
    rw [← det3_rotate] at this
    exact dotProduct_self_eq_zero.1 this
  -- then all minors vanish
  have e1 := congrFun hbc
  simp only [cross_apply] at e1
  have f0 := e1 0
  have f1 := e1 1
  have f2 := e1 2
  simp at f0 f1 f2
  have g := fun i => h 0 (c i) (-(b i))
  have g0 := g 0 (fun i => by fin_cases i <;> simp <;> linarith)
  have g1 := g 1 (fun i => by fin_cases i <;> simp <;> linarith)
  have g2 := g 2 (fun i => by fin_cases i <;> simp <;> linarith)
  have hb : ∀ i, b i = 0 := by
    intro i
    fin_cases i
    · simpa using g0.2.2
    · simpa using g1.2.2
    · simpa using g2.2.2
  have := h 0 1 0 fun i => by rw [hb]; ring
  exact one_ne_zero this.2.1

theorem independent_iff (a b c : E3) : Independent3 a b c ↔ det3 a b c ≠ 0 := by
  refine ⟨det3_ne_zero, fun hd s t u h => ?_⟩
  have e : (fun i => s * a i + t * b i + u * c i) = (0 : E3) := funext h
  have h1 : det3 (fun i => s * a i + t * b i + u * c i) b c = s * det3 a b c := by
    simp only [det3_apply]; ring
  have h2 : det3 a (fun i => s * a i + t * b i + u * c i) c = t * det3 a b c := by
    simp only [det3_apply]; ring
  have h3 : det3 a b (fun i => s * a i + t * b i + u * c i) = u * det3 a b c := by
    simp only [det3_apply]; ring
  rw [e] at h1 h2 h3
  have z1 : det3 0 b c = 0 := by simp [det3_apply]
  have z2 : det3 a 0 c = 0 := by simp [det3_apply]
  have z3 : det3 a b 0 = 0 := by simp [det3_apply]
  rw [z1] at h1; rw [z2] at h2; rw [z3] at h3
  exact ⟨(mul_eq_zero.1 h1.symm).resolve_right hd, (mul_eq_zero.1 h2.symm).resolve_right hd,
    (mul_eq_zero.1 h3.symm).resolve_right hd⟩

/-- a cone is the intersection of three half-spaces -/
theorem mem_cone3 {a b c : E3} (hd : det3 a b c ≠ 0) (x : E3) : x ∈ cone3 a b c ↔
    0 ≤ det3 a b c * det3 x b c ∧ 0 ≤ det3 a b c * det3 a x c ∧ 0 ≤ det3 a b c * det3 a b x := by
  constructor
  · rintro ⟨s, t, u, hs, ht, hu, hx⟩
    have e : x = fun i => s * a i + t * b i + u * c i := funext hx
    have h1 : det3 x b c = s * det3 a b c := by rw [e]; simp only [det3_apply]; ring
    have h2 : det3 a x c = t * det3 a b c := by rw [e]; simp only [det3_apply]; ring
    have h3 : det3 a b x = u * det3 a b c := by rw [e]; simp only [det3_apply]; ring
    rw [h1, h2, h3]
    have := mul_self_nonneg (det3 a b c)
    refine ⟨?_, ?_, ?_⟩
    · nlinarith [mul_nonneg hs this]
    · nlinarith [mul_nonneg ht this]
    · nlinarith [mul_nonneg hu this]
  · rintro ⟨h1, h2, h3⟩
    have hp : 0 < det3 a b c * det3 a b c := mul_self_pos.2 hd
    refine ⟨det3 x b c / det3 a b c, det3 a x c / det3 a b c, det3 a b x / det3 a b c, ?_, ?_, ?_, fun i => ?_⟩
    · rw [← mul_div_mul_left _ _ hd]; exact div_nonneg h1 hp.le
    · rw [← mul_div_mul_left _ _ hd]; exact div_nonneg h2 hp.le
    · rw [← mul_div_mul_left _ _ hd]; exact div_nonneg h3 hp.le
    · have := cramer3 a b c x i
      field_simp
      linarith

theorem cone3_scale {a b c x : E3} {r : ℝ} (hr : 0 < r) : r • x ∈ cone3 a b c ↔ x ∈ cone3 a b c := by
  constructor
  · rintro ⟨s, t, u, hs, ht, hu, hx⟩
    refine ⟨s / r, t / r, u / r, by positivity, by positivity, by positivity, fun i => ?_⟩
    have := hx i
    simp only [Pi.smul_apply, smul_eq_mul] at this
    field_simp
    linarith
  · rintro ⟨s, t, u, hs, ht, hu, hx⟩
    refine ⟨r * s, r * t, r * u, by positivity, by positivity, by positivity, fun i => ?_⟩
    simp only [Pi.smul_apply, smul_eq_mul, hx i]
    ring

theorem cone3_eq {a b c : E3} (hd : det3 a b c ≠ 0) : cone3 a b c =
    half3 (det3 a b c • (b ⨯₃ c)) ∩ half3 (det3 a b c • (c ⨯₃ a)) ∩ half3 (det3 a b c • (a ⨯₃ b)) := by
  ext x
  rw [mem_cone3 hd]
  have e1 : det3 x b c = (b ⨯₃ c) ⬝ᵥ x := dotProduct_comm _ _
  have e2 : det3 a x c = (c ⨯₃ a) ⬝ᵥ x := by rw [← det3_rotate]; exact dotProduct_comm _ _
  have e3 : det3 a b x = (a ⨯₃ b) ⬝ᵥ x := by rw [← det3_rotate, ← det3_rotate]; exact dotProduct_comm _ _
  rw [e1, e2, e3]
  simp only [half3, mem_inter_iff, mem_ofPred_eq, smul_dotProduct, smul_eq_mul]
  tauto

theorem measurableSet_cone3 {a b c : E3} (hd : det3 a b c ≠ 0) : MeasurableSet (cone3 a b c) := by
  rw [cone3_eq hd]
  exact ((measurableSet_half3 _).inter (measurableSet_half3 _)).inter (measurableSet_half3 _)

/-- the area of a spherical triangle, as a volume -/
theorem sphericalTriangle_area {a b c : E3} (hd : det3 a b c ≠ 0) :
    surfaceArea (sphericalTriangle a b c) = 3 * volume.real (ball3 ∩ cone3 a b c) :=
  surfaceArea_cone (measurableSet_cone3 hd) fun _ _ hr => cone3_scale hr

/-! ### The area -/

theorem normalizedVec_smul {v : E3} (hv : v ≠ 0) :
    0 < Real.sqrt (v ⬝ᵥ v) ∧ v = Real.sqrt (v ⬝ᵥ v) • Model.normalizedVec v ∧
      Model.normalizedVec v ⬝ᵥ Model.normalizedVec v = 1 := by
  have h0 : v ⬝ᵥ v ≠ 0 := fun h => hv (dotProduct_self_eq_zero.1 h)
  have hnn : 0 ≤ v ⬝ᵥ v := by rw [dot3]; nlinarith [mul_self_nonneg (v 0), mul_self_nonneg (v 1), mul_self_nonneg (v 2)]
  have hp : 0 < Real.sqrt (v ⬝ᵥ v) := Real.sqrt_pos.2 (lt_of_le_of_ne hnn h0.symm)
  have e : Model.normalizedVec v = fun i => v i / Real.sqrt (v ⬝ᵥ v) := by
    have hp' : Real.sqrt (Model.dot v v) ≠ 0 := hp.ne'
    unfold Model.normalizedVec
    simp only [if_neg hp']
    rfl
  refine ⟨hp, ?_, ?_⟩
  · rw [e]
    funext i
    simp only [Pi.smul_apply, smul_eq_mul]
    field_simp
  · rw [e, dot3]
    have h1 := Real.mul_self_sqrt hnn
    field_simp
    rw [pow_two (Real.sqrt _), h1, dot3]
    ring

theorem half3_pos (r : ℝ) (hr : 0 < r) (n : E3) : half3 (r • n) = half3 n := by
  ext x
  simp only [half3, mem_ofPred_eq, smul_dotProduct, smul_eq_mul]
  exact mul_nonneg_iff_of_pos_left hr

/-- the half-space does not depend on the length of its normal -/
theorem half3_normalized {d : ℝ} (hd : d ≠ 0) {v : E3} (hv : v ≠ 0) :
    half3 (d • v) = half3 ((d / |d|) • Model.normalizedVec v) := by
  obtain ⟨hp, e, -⟩ := normalizedVec_smul hv
  have : d • v = (|d| * Real.sqrt (v ⬝ᵥ v)) • ((d / |d|) • Model.normalizedVec v) := by
    conv_lhs => rw [e]
    rw [smul_smul, smul_smul]
    congr 1
    have := abs_pos.2 hd
    field_simp
  rw [this, half3_pos _ (mul_pos (abs_pos.2 hd) hp)]

theorem normalized_dot_lt {v w : E3} (hv : v ≠ 0) (hw : w ≠ 0) (hvw : v ⨯₃ w ≠ 0) :
    (Model.normalizedVec v ⬝ᵥ Model.normalizedVec w) ^ 2 < 1 := by
  obtain ⟨hp, e, h1⟩ := normalizedVec_smul hv
  obtain ⟨hq, f, h2⟩ := normalizedVec_smul hw
  set m := Model.normalizedVec v
  set n := Model.normalizedVec w
  have hc := cross_dot_cross m n m n
  rw [h1, h2, dotProduct_comm n m] at hc
  have hne : m ⨯₃ n ≠ 0 := by
    intro h0
    apply hvw
    rw [e, f]
    simp [h0]
  have hne' : (m ⨯₃ n) ⬝ᵥ (m ⨯₃ n) ≠ 0 := fun h => hne (dotProduct_self_eq_zero.1 h)
  have hnn : 0 ≤ (m ⨯₃ n) ⬝ᵥ (m ⨯₃ n) := by
    rw [dot3]
    nlinarith [mul_self_nonneg ((m ⨯₃ n) 0), mul_self_nonneg ((m ⨯₃ n) 1), mul_self_nonneg ((m ⨯₃ n) 2)]
  have := lt_of_le_of_ne hnn hne'.symm
  nlinarith

theorem clip_eq {x : ℝ} (h : x ^ 2 ≤ 1) : min (max x (-1)) 1 = x := by
  rw [max_eq_left (by nlinarith), min_eq_left (by nlinarith)]

theorem areaFromNormals_eq (n : Fin 3 → E3) (h : ∀ i j, (Model.normalizedVec (n i) ⬝ᵥ Model.normalizedVec (n j)) ^ 2 ≤ 1) :
    Model.areaFromNormals n =
      Real.arccos (-(Model.normalizedVec (n 0) ⬝ᵥ Model.normalizedVec (n 1))) +
      Real.arccos (-(Model.normalizedVec (n 1) ⬝ᵥ Model.normalizedVec (n 2))) +
      Real.arccos (-(Model.normalizedVec (n 2) ⬝ᵥ Model.normalizedVec (n 0))) - Real.pi := by
  unfold Model.areaFromNormals
  simp only [Fin.sum_univ_three, dot_eq_dotProduct]
  rw [clip_eq (h _ _), clip_eq (h _ _), clip_eq (h _ _)]
  have : ((0 : Fin 3) + 1 = 1) ∧ ((0 : Fin 3) + 2 = 2) ∧ ((1 : Fin 3) + 1 = 2) ∧ ((1 : Fin 3) + 2 = 0) ∧
    ((2 : Fin 3) + 1 = 0) ∧ ((2 : Fin 3) + 2 = 1) := by decide
  obtain ⟨h1, h2, h3, h4, h5, h6⟩ := this
  rw [h1, h2, h3, h4, h5, h6]
  ring

theorem cross_normals (a b c : E3) : (b ⨯₃ c) ⨯₃ (c ⨯₃ a) = det3 a b c • c := by
  funext i
  simp only [cross_apply, det3_apply, Pi.smul_apply, smul_eq_mul]
  fin_cases i <;> simp <;> ring

theorem normalized_dot_le (v w : E3) : (Model.normalizedVec v ⬝ᵥ Model.normalizedVec w) ^ 2 ≤ 1 := by
  have z : Model.normalizedVec (0 : E3) = 0 := by
    unfold Model.normalizedVec
    funext i
    simp
  by_cases hv : v = 0
  · rw [hv, z]; simp
  by_cases hw : w = 0
  · rw [hw, z]; simp
  obtain ⟨-, -, h1⟩ := normalizedVec_smul hv
  obtain ⟨-, -, h2⟩ := normalizedVec_smul hw
  have hc := cross_dot_cross (Model.normalizedVec v) (Model.normalizedVec w) (Model.normalizedVec v) (Model.normalizedVec w)
  rw [h1, h2, dotProduct_comm (Model.normalizedVec w)] at hc
  have : 0 ≤ (Model.normalizedVec v ⨯₃ Model.normalizedVec w) ⬝ᵥ (Model.normalizedVec v ⨯₃ Model.normalizedVec w) := by
    rw [dot3]
    exact add_nonneg (add_nonneg (mul_self_nonneg _) (mul_self_nonneg _)) (mul_self_nonneg _)
  nlinarith

theorem areaFromCorners_eq (a b c : E3) : Model.areaFromCorners ![a, b, c] =
      Real.arccos (-(Model.normalizedVec (b ⨯₃ c) ⬝ᵥ Model.normalizedVec (c ⨯₃ a))) +
      Real.arccos (-(Model.normalizedVec (c ⨯₃ a) ⬝ᵥ Model.normalizedVec (a ⨯₃ b))) +
      Real.arccos (-(Model.normalizedVec (a ⨯₃ b) ⬝ᵥ Model.normalizedVec (b ⨯₃ c))) - Real.pi := by
  unfold Model.areaFromCorners
  rw [areaFromNormals_eq _ fun i j => normalized_dot_le _ _]
  simp only [cross_eq]
  rfl

/-- Girard's theorem for the function of the model -/
theorem areaFromCorners_area {a b c : E3} (hd : det3 a b c ≠ 0) :
    Model.areaFromCorners ![a, b, c] = surfaceArea (sphericalTriangle a b c) := by
  have ne : ∀ {x y z : E3}, det3 x y z ≠ 0 → y ⨯₃ z ≠ 0 := fun h h0 => h (by unfold det3; rw [h0]; simp)
  have hd1 : det3 b c a ≠ 0 := by rwa [det3_rotate]
  have hd2 : det3 c a b ≠ 0 := by rwa [det3_rotate]
  have n1 := ne hd
  have n2 := ne hd1
  have n3 := ne hd2
  have c0 : ∀ {x y z : E3}, det3 x y z ≠ 0 → x ≠ 0 := fun h h0 => h (by unfold det3; rw [h0]; simp)
  have x1 : (b ⨯₃ c) ⨯₃ (c ⨯₃ a) ≠ 0 := by rw [cross_normals]; exact smul_ne_zero hd (c0 hd2)
  have x2 : (c ⨯₃ a) ⨯₃ (a ⨯₃ b) ≠ 0 := by rw [cross_normals]; exact smul_ne_zero hd1 (c0 hd)
  have x3 : (a ⨯₃ b) ⨯₃ (b ⨯₃ c) ≠ 0 := by rw [cross_normals]; exact smul_ne_zero hd2 (c0 hd1)
  rw [sphericalTriangle_area hd, cone3_eq hd, half3_normalized hd n1, half3_normalized hd n2, half3_normalized hd n3,
    areaFromCorners_eq, ← inter_assoc, ← inter_assoc]
  set σ := det3 a b c / |det3 a b c| with hσ
  have hσ2 : σ * σ = 1 := by
    have : |det3 a b c| * |det3 a b c| = det3 a b c * det3 a b c := abs_mul_abs_self _
    have h2 := abs_pos.2 hd
    rw [hσ]
    field_simp
    rw [pow_two, pow_two, this]
  have hs : ∀ v w : E3, (σ • v) ⬝ᵥ (σ • w) = v ⬝ᵥ w := by
    intro v w
    rw [smul_dotProduct, dotProduct_smul, smul_eq_mul, smul_eq_mul, ← mul_assoc, hσ2, one_mul]
  rw [volume_three]
  · rw [hs, hs, hs]
  · rw [hs]; exact (normalizedVec_smul n1).2.2
  · rw [hs]; exact (normalizedVec_smul n2).2.2
  · rw [hs]; exact (normalizedVec_smul n3).2.2
  · rw [hs]; exact normalized_dot_lt n1 n2 x1
  · rw [hs]; exact normalized_dot_lt n2 n3 x2
  · rw [hs]; exact normalized_dot_lt n3 n1 x3

end Verif
