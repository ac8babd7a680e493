/-
The volume of the part of a ball between three planes.
-/
import Verif.Lemmas.Wedge
import Mathlib.MeasureTheory.Measure.Lebesgue.EqHaar
import Mathlib.LinearAlgebra.CrossProduct
import Mathlib.LinearAlgebra.Matrix.DotProduct
namespace Verif
open MeasureTheory Set Matrix

abbrev E3 := Fin 3 → ℝ

theorem dot3 (u v : E3) : u ⬝ᵥ v = u 0 * v 0 + u 1 * v 1 + u 2 * v 2 := by
  simp [dotProduct, Fin.sum_univ_three]

def ball3 : Set E3 := {x | x ⬝ᵥ x ≤ 1}
def half3 (n : E3) : Set E3 := {x | 0 ≤ n ⬝ᵥ x}

theorem measurable_dot (n : E3) : Measurable fun x : E3 => n ⬝ᵥ x := by
  unfold dotProduct; fun_prop

theorem measurableSet_ball3 : MeasurableSet ball3 :=
  measurableSet_le (by unfold dotProduct; fun_prop) measurable_const

theorem measurableSet_half3 (n : E3) : MeasurableSet (half3 n) :=
  measurableSet_le measurable_const (measurable_dot n)

/-- orthogonal maps keep volumes -/
theorem volume_orthogonal {Q : Matrix (Fin 3) (Fin 3) ℝ} (hQ : Q * Qᵀ = 1) {S : Set E3} (hS : MeasurableSet S) :
    volume {x | Q *ᵥ x ∈ S} = volume S := by
  have hd : Q.det * Q.det = 1 := by
    have := congrArg det hQ
    rwa [det_mul, det_transpose, det_one] at this
  have hd0 : Q.det ≠ 0 := fun h => by rw [h] at hd; norm_num at hd
  have h := Real.map_matrix_volume_pi_eq_smul_volume_pi hd0
  have habs : |Q.det⁻¹| = 1 := by
    rw [abs_inv, inv_eq_one]
    have : |Q.det| * |Q.det| = 1 := by rw [← abs_mul, hd, abs_one]
    nlinarith [abs_nonneg Q.det]
  rw [habs, ENNReal.ofReal_one, one_smul] at h
  have h2 : Measurable (toLin' Q) := (toLin' Q).continuous_of_finiteDimensional.measurable
  have h3 := congrArg (fun μ : Measure E3 => μ S) h
  rw [Measure.map_apply h2 hS] at h3
  rw [← h3]
  rfl

theorem orthogonal_dot {Q : Matrix (Fin 3) (Fin 3) ℝ} (hQ : Q * Qᵀ = 1) (x y : E3) :
    (Q *ᵥ x) ⬝ᵥ (Q *ᵥ y) = x ⬝ᵥ y := by
  have h2 : Qᵀ * Q = 1 := mul_eq_one_comm.1 hQ
  rw [dotProduct_mulVec, ← mulVec_transpose, mulVec_mulVec, h2, one_mulVec]

/-- the wedge between two planes -/
theorem volume_between {m n : E3} (hm : m ⬝ᵥ m = 1) (hn : n ⬝ᵥ n = 1) (hlt : (m ⬝ᵥ n) ^ 2 < 1) :
    volume (ball3 ∩ half3 m ∩ half3 n) = ENNReal.ofReal (2 / 3 * (Real.pi - Real.arccos (m ⬝ᵥ n))) := by
  set c := m ⬝ᵥ n with hc
  have hc1 : -1 < c := by nlinarith
  have hc2 : c < 1 := by nlinarith
  set s := Real.sqrt (1 - c ^ 2) with hs
  have hs0 : 0 < s := Real.sqrt_pos.2 (by linarith)
  have hss : s * s = 1 - c ^ 2 := Real.mul_self_sqrt (by linarith)
  set q : E3 := fun i => (n i - c * m i) / s with hq
  have hmq : m ⬝ᵥ q = 0 := by
    rw [dot3] at hm hc ⊢
    simp only [hq]
    field_simp
    rw [hc]; linear_combination -(m 0 * n 0 + m 1 * n 1 + m 2 * n 2) * hm
  have hqq : q ⬝ᵥ q = 1 := by
    rw [dot3] at hm hn hc ⊢
    simp only [hq]
    field_simp
    linear_combination hn + c ^ 2 * hm - hss + 2 * c * hc
  have hnq : ∀ x : E3, n ⬝ᵥ x = c * (m ⬝ᵥ x) + s * (q ⬝ᵥ x) := by
    intro x
    rw [dot3, dot3, dot3]
    simp only [hq]
    field_simp
    ring
  set r := m ⨯₃ q with hr
  have hmr : m ⬝ᵥ r = 0 := dot_self_cross m q
  have hqr : q ⬝ᵥ r = 0 := dot_cross_self m q
  have hrr : r ⬝ᵥ r = 1 := by
    rw [hr, cross_dot_cross, hm, hqq, hmq]; ring
  let Q : Matrix (Fin 3) (Fin 3) ℝ := of ![m, q, r]
  have hQ : Q * Qᵀ = 1 := by
    ext i j
    have : (Q * Qᵀ) i j = Q i ⬝ᵥ Q j := rfl
    rw [this, one_apply]
    fin_cases i <;> fin_cases j
    exacts [hm, hmq, hmr, (dotProduct_comm q m).trans hmq, hqq, hqr, (dotProduct_comm r m).trans hmr,
      (dotProduct_comm r q).trans hqr, hrr]
  have hcos : Real.cos (Real.arccos c) = c := Real.cos_arccos hc1.le hc2.le
  have hsin : Real.sin (Real.arccos c) = s := by rw [Real.sin_arccos]
  have hpi : Real.arccos c < Real.pi := by
    refine lt_of_le_of_ne (Real.arccos_le_pi c) fun h => ?_
    rw [Real.arccos_eq_pi] at h
    linarith
  rw [← volume_wedge _ (Real.arccos_nonneg c) hpi, hcos, hsin]
  rw [← volume_orthogonal hQ (measurableSet_le3 (by fun_prop) (by fun_prop) (by fun_prop))]
  congr 1
  ext x
  have h0 : (Q *ᵥ x) 0 = m ⬝ᵥ x := rfl
  have h1 : (Q *ᵥ x) 1 = q ⬝ᵥ x := rfl
  have h2 : (Q *ᵥ x) 0 ^ 2 + (Q *ᵥ x) 1 ^ 2 + (Q *ᵥ x) 2 ^ 2 = x ⬝ᵥ x := by
    rw [← orthogonal_dot hQ, dot3]; ring
  simp only [mem_inter_iff, mem_ofPred_eq, ball3, half3]
  rw [h2, h0, h1, ← hnq]
  tauto

theorem volume_plane {n : E3} (hn : n ≠ 0) : volume {x : E3 | n ⬝ᵥ x = 0} = 0 := by
  let L : E3 →ₗ[ℝ] ℝ := dotProductBilin ℝ ℝ n
  have : {x : E3 | n ⬝ᵥ x = 0} = (LinearMap.ker L : Set E3) := by
    ext x; rfl
  rw [this]
  apply Measure.addHaar_submodule
  intro h
  apply hn
  rw [LinearMap.ker_eq_top] at h
  have : L n = 0 := by rw [h]; rfl
  exact dotProduct_self_eq_zero.1 this

theorem volume_neg (S : Set E3) : volume {x | -x ∈ S} = volume S := by
  have h := Measure.addHaar_preimage_smul (volume : Measure E3) (r := -1) (by norm_num) S
  have e : (fun x : E3 => (-1 : ℝ) • x) ⁻¹' S = {x | -x ∈ S} := by
    ext x
    simp
  rw [← e, h]
  simp [abs_inv, abs_pow]

theorem volume_open_half (n : E3) (hn : n ≠ 0) (S : Set E3) :
    volume (S ∩ {x | n ⬝ᵥ x < 0}) = volume (S ∩ half3 (-n)) := by
  refine measure_congr ?_
  have h0 : ∀ᵐ x : E3, n ⬝ᵥ x ≠ 0 := by
    rw [ae_iff]
    simpa using volume_plane hn
  filter_upwards [h0] with x hx
  refine propext ⟨fun h => ⟨h.1, ?_⟩, fun h => ⟨h.1, ?_⟩⟩
  · have : n ⬝ᵥ x < 0 := h.2
    show 0 ≤ -n ⬝ᵥ x
    rw [neg_dotProduct]; linarith
  · have : 0 ≤ -n ⬝ᵥ x := h.2
    rw [neg_dotProduct] at this
    exact lt_of_le_of_ne (by linarith) hx

theorem volume_ball_half {n : E3} : volume (ball3 ∩ half3 (-n)) = volume (ball3 ∩ half3 n) := by
  rw [← volume_neg (ball3 ∩ half3 n)]
  congr 1
  ext x
  simp [ball3, half3]

theorem volume_split (n : E3) (S : Set E3) (hn : n ≠ 0) :
    volume S = volume (S ∩ half3 n) + volume (S ∩ half3 (-n)) := by
  rw [← volume_open_half n hn, ← measure_inter_add_sdiff S (measurableSet_half3 n)]
  congr 2
  ext x
  simp [half3]

theorem volume_ball3 : volume ball3 = ENNReal.ofReal (4 / 3 * Real.pi) := by
  have hz : volume (ball3 ∩ half3 ![1, 0, 0]) = ENNReal.ofReal (2 / 3 * Real.pi) := by
    have := volume_wedge 0 le_rfl Real.pi_pos
    rw [sub_zero] at this
    rw [← this]
    congr 1
    ext x
    simp [ball3, half3, dot3, pow_two]
    tauto
  rw [volume_split ![1, 0, 0] ball3 (fun h => one_ne_zero (congrFun h 0)), volume_ball_half, hz,
    ← ENNReal.ofReal_add (by positivity) (by positivity)]
  congr 1
  ring

theorem volume_half {n : E3} (hn : n ≠ 0) : volume (ball3 ∩ half3 n) = ENNReal.ofReal (2 / 3 * Real.pi) := by
  have h := volume_split n ball3 hn
  rw [volume_ball_half, volume_ball3, ← two_mul] at h
  have h2 : ENNReal.ofReal (4 / 3 * Real.pi) = 2 * ENNReal.ofReal (2 / 3 * Real.pi) := by
    rw [← ENNReal.ofReal_ofNat, ← ENNReal.ofReal_mul (by norm_num)]
    congr 1
    ring
  rw [h2] at h
  exact ((ENNReal.mul_right_inj (by norm_num) (by norm_num)).1 h).symm

/-- the volume of the part of the ball between three planes: Girard's theorem -/
theorem volume_three {l m n : E3} (hl : l ⬝ᵥ l = 1) (hm : m ⬝ᵥ m = 1) (hn : n ⬝ᵥ n = 1) (h1 : (l ⬝ᵥ m) ^ 2 < 1)
    (h2 : (m ⬝ᵥ n) ^ 2 < 1) (h3 : (n ⬝ᵥ l) ^ 2 < 1) :
    3 * volume.real (ball3 ∩ half3 l ∩ half3 m ∩ half3 n) =
      Real.arccos (-(l ⬝ᵥ m)) + Real.arccos (-(m ⬝ᵥ n)) + Real.arccos (-(n ⬝ᵥ l)) - Real.pi := by
  have ne : ∀ {v : E3}, v ⬝ᵥ v = 1 → v ≠ 0 := fun h h0 => by rw [h0] at h; simp at h
  have fin : volume ball3 ≠ ⊤ := by rw [volume_ball3]; exact ENNReal.ofReal_ne_top
  have split : ∀ (v : E3) (S : Set E3), v ≠ 0 → S ⊆ ball3 →
      volume.real S = volume.real (S ∩ half3 v) + volume.real (S ∩ half3 (-v)) := by
    intro v S hv hS
    have hf : volume S ≠ ⊤ := ne_top_of_le_ne_top fin (measure_mono hS)
    unfold Measure.real
    rw [volume_split v S hv, ENNReal.toReal_add]
    · exact ne_top_of_le_ne_top hf (measure_mono inter_subset_left)
    · exact ne_top_of_le_ne_top hf (measure_mono inter_subset_left)
  have between : ∀ {u v : E3}, u ⬝ᵥ u = 1 → v ⬝ᵥ v = 1 → (u ⬝ᵥ v) ^ 2 < 1 →
      volume.real (ball3 ∩ half3 u ∩ half3 v) = 2 / 3 * (Real.arccos (-(u ⬝ᵥ v))) := by
    intro u v hu hv h
    unfold Measure.real
    rw [volume_between hu hv h, ENNReal.toReal_ofReal, Real.arccos_neg]
    have := Real.arccos_le_pi (u ⬝ᵥ v)
    nlinarith
  have half : ∀ {v : E3}, v ⬝ᵥ v = 1 → volume.real (ball3 ∩ half3 v) = 2 / 3 * Real.pi := by
    intro v hv
    unfold Measure.real
    rw [volume_half (ne hv), ENNReal.toReal_ofReal (by positivity)]
  have hB : volume.real ball3 = 4 / 3 * Real.pi := by
    unfold Measure.real
    rw [volume_ball3, ENNReal.toReal_ofReal (by positivity)]
  have hneg : volume.real (ball3 ∩ half3 (-l) ∩ half3 (-m) ∩ half3 (-n)) =
      volume.real (ball3 ∩ half3 l ∩ half3 m ∩ half3 n) := by
    unfold Measure.real
    rw [← volume_neg (ball3 ∩ half3 l ∩ half3 m ∩ half3 n)]
    congr 2
    ext x
    simp [ball3, half3]
  have sub1 : ∀ u : E3, ball3 ∩ half3 u ⊆ ball3 := fun u => inter_subset_left
  have sub2 : ∀ u v : E3, ball3 ∩ half3 u ∩ half3 v ⊆ ball3 := fun u v => inter_subset_left.trans inter_subset_left
  have e1 := split l ball3 (ne hl) subset_rfl
  have e2 := split m (ball3 ∩ half3 (-l)) (ne hm) (sub1 _)
  have e3 := split n (ball3 ∩ half3 (-l) ∩ half3 (-m)) (ne hn) (sub2 _ _)
  have e4 := split l (ball3 ∩ half3 m) (ne hl) (sub1 _)
  have e5 := split m (ball3 ∩ half3 (-l) ∩ half3 n) (ne hm) (sub2 _ _)
  have e6 := split l (ball3 ∩ half3 n) (ne hl) (sub1 _)
  have e7 := split l (ball3 ∩ half3 m ∩ half3 n) (ne hl) (sub2 _ _)
  have comm : ∀ S T U : Set E3, S ∩ T ∩ U = S ∩ U ∩ T := fun S T U => by
    rw [inter_assoc, inter_comm T, ← inter_assoc]
  rw [comm ball3 (half3 m) (half3 l), comm ball3 (half3 m) (half3 (-l))] at e4
  rw [comm ball3 (half3 n) (half3 (-l))] at e6
  rw [comm (ball3 ∩ half3 (-l)) (half3 (-m)) (half3 n)] at e3
  rw [comm (ball3 ∩ half3 m) (half3 n) (half3 l), comm ball3 (half3 m) (half3 l),
    comm (ball3 ∩ half3 m) (half3 n) (half3 (-l)), comm ball3 (half3 m) (half3 (-l)),
    comm (ball3 ∩ half3 (-l)) (half3 m) (half3 n)] at e7
  rw [half hl, hB] at e1
  rw [half hm, between hl hm h1] at e4
  rw [half hn, between hn hl h3] at e6
  rw [between hm hn h2] at e7
  linarith

end Verif
