/-
The volume of the part of a ball between two planes.
-/
import Mathlib.Analysis.SpecialFunctions.PolarCoord
import Mathlib.MeasureTheory.Constructions.Pi
import Mathlib.Analysis.SpecialFunctions.Trigonometric.Inverse
import Mathlib.MeasureTheory.Integral.Prod
import Mathlib.Analysis.SpecialFunctions.Integrals.Basic

namespace Verif

open MeasureTheory Set

theorem measurableSet_le3 {α : Type} [MeasurableSpace α] {f g h : α → ℝ} {c : ℝ} (hf : Measurable f) (hg : Measurable g)
    (hh : Measurable h) : MeasurableSet {x | 0 ≤ f x ∧ 0 ≤ g x ∧ h x ≤ c} :=
  (measurableSet_le measurable_const hf).inter
    ((measurableSet_le measurable_const hg).inter (measurableSet_le hh measurable_const))

/-- the sector of a disc -/
theorem volume_sector (φ R : ℝ) (h0 : 0 ≤ φ) (h1 : φ < Real.pi) (hR : 0 ≤ R) :
    volume {p : ℝ × ℝ | 0 ≤ p.1 ∧ 0 ≤ Real.cos φ * p.1 + Real.sin φ * p.2 ∧ p.1 ^ 2 + p.2 ^ 2 ≤ R} =
      ENNReal.ofReal ((Real.pi - φ) * R / 2) := by
  set S := {p : ℝ × ℝ | 0 ≤ p.1 ∧ 0 ≤ Real.cos φ * p.1 + Real.sin φ * p.2 ∧ p.1 ^ 2 + p.2 ^ 2 ≤ R}
  have hS : MeasurableSet S := by
    exact measurableSet_le3 (by fun_prop) (by fun_prop) (by fun_prop)
  rw [← lintegral_indicator_one hS, ← lintegral_comp_polarCoord_symm]
  have key : ∀ p ∈ polarCoord.target, ENNReal.ofReal p.1 • S.indicator (1 : ℝ × ℝ → ENNReal) (polarCoord.symm p) =
      ((Ioc 0 (Real.sqrt R)).indicator (fun r => ENNReal.ofReal r) p.1) *
        ((Icc (φ - Real.pi / 2) (Real.pi / 2)).indicator 1 p.2) := by
    rintro ⟨r, t⟩ hp
    simp only [polarCoord_target, mem_prod, mem_Ioi, mem_Ioo] at hp
    obtain ⟨hr, ht1, ht2⟩ := hp
    have e : polarCoord.symm (r, t) ∈ S ↔ r ∈ Ioc 0 (Real.sqrt R) ∧ t ∈ Icc (φ - Real.pi / 2) (Real.pi / 2) := by
      simp only [S, polarCoord_symm_apply, mem_ofPred_eq, mem_Ioc, mem_Icc]
      have e1 : (r * Real.cos t) ^ 2 + (r * Real.sin t) ^ 2 = r ^ 2 := by
        have := Real.sin_sq_add_cos_sq t
        nlinarith
      have e2 : Real.cos φ * (r * Real.cos t) + Real.sin φ * (r * Real.sin t) = r * Real.cos (t - φ) := by
        rw [Real.cos_sub]; ring
      rw [e1, e2, mul_nonneg_iff_of_pos_left hr, mul_nonneg_iff_of_pos_left hr, ← Real.le_sqrt' hr]
      have hpi := Real.pi_pos
      constructor
      · rintro ⟨a, b, c⟩
        refine ⟨⟨hr, c⟩, ?_, ?_⟩
        · by_contra hlt
          push Not at hlt
          by_cases h3 : t < - (Real.pi / 2)
          · have : Real.cos t < 0 := by
              rw [← Real.cos_neg]
              exact Real.cos_neg_of_pi_div_two_lt_of_lt (by linarith) (by linarith)
            linarith
          · push Not at h3
            have : Real.cos (t - φ) < 0 := by
              rw [← Real.cos_neg]
              exact Real.cos_neg_of_pi_div_two_lt_of_lt (by linarith) (by linarith)
            linarith
        · by_contra hlt
          push Not at hlt
          have : Real.cos t < 0 := Real.cos_neg_of_pi_div_two_lt_of_lt hlt (by linarith)
          linarith
      · rintro ⟨⟨-, c⟩, d, f⟩
        refine ⟨Real.cos_nonneg_of_mem_Icc ⟨by linarith, f⟩, Real.cos_nonneg_of_mem_Icc ⟨by linarith, by linarith⟩, c⟩
    by_cases h : polarCoord.symm (r, t) ∈ S
    · rw [indicator_of_mem h]
      have h' := e.1 h
      rw [indicator_of_mem h'.1, indicator_of_mem h'.2]
      simp
    · rw [indicator_of_notMem h]
      simp only [smul_zero]
      by_cases h3 : r ∈ Ioc 0 (Real.sqrt R)
      · rw [indicator_of_notMem (s := Icc _ _) (fun h4 => h (e.2 ⟨h3, h4⟩)), mul_zero]
      · rw [indicator_of_notMem (s := Ioc _ _) h3, zero_mul]
  rw [setLIntegral_congr_fun (polarCoord.open_target.measurableSet) key]
  rw [polarCoord_target, Measure.volume_eq_prod, ← Measure.prod_restrict, lintegral_prod_mul]
  · have a1 : ∫⁻ r in Ioi (0:ℝ), (Ioc 0 (Real.sqrt R)).indicator (fun r => ENNReal.ofReal r) r = ENNReal.ofReal (R / 2) := by
      rw [setLIntegral_indicator measurableSet_Ioc]
      rw [inter_eq_left.2 (fun x hx => hx.1)]
      rw [← ofReal_integral_eq_lintegral_ofReal]
      · rw [← intervalIntegral.integral_of_le (Real.sqrt_nonneg R), integral_id, Real.sq_sqrt hR]
        congr 1; ring
      · exact (continuous_id.integrableOn_Icc).mono_set Ioc_subset_Icc_self
      · filter_upwards [ae_restrict_mem measurableSet_Ioc] with x hx using hx.1.le
    have a2 : ∫⁻ t in Ioo (-Real.pi) Real.pi, (Icc (φ - Real.pi / 2) (Real.pi / 2)).indicator (1 : ℝ → ENNReal) t =
        ENNReal.ofReal (Real.pi - φ) := by
      rw [setLIntegral_indicator measurableSet_Icc, inter_eq_left.2]
      · simp only [Pi.one_apply, lintegral_const, Measure.restrict_apply MeasurableSet.univ, univ_inter, one_mul,
          Real.volume_Icc]
        congr 1; ring
      · intro x hx
        have := Real.pi_pos
        exact ⟨by linarith [hx.1], by linarith [hx.2]⟩
    rw [a1, a2, ← ENNReal.ofReal_mul (by linarith)]
    congr 1; ring
  · exact (Measurable.indicator (by fun_prop) measurableSet_Ioc).aemeasurable
  · exact (Measurable.indicator measurable_one measurableSet_Icc).aemeasurable

theorem volume_wedge (φ : ℝ) (h0 : 0 ≤ φ) (h1 : φ < Real.pi) :
    volume {x : Fin 3 → ℝ | 0 ≤ x 0 ∧ 0 ≤ Real.cos φ * x 0 + Real.sin φ * x 1 ∧
      x 0 ^ 2 + x 1 ^ 2 + x 2 ^ 2 ≤ 1} = ENNReal.ofReal (2 / 3 * (Real.pi - φ)) := by
  set T : Set (ℝ × (Fin 2 → ℝ)) := {q | 0 ≤ q.2 0 ∧ 0 ≤ Real.cos φ * q.2 0 + Real.sin φ * q.2 1 ∧
    q.2 0 ^ 2 + q.2 1 ^ 2 + q.1 ^ 2 ≤ 1}
  have hT : MeasurableSet T := by
    exact measurableSet_le3 (by fun_prop) (by fun_prop) (by fun_prop)
  have e : {x : Fin 3 → ℝ | 0 ≤ x 0 ∧ 0 ≤ Real.cos φ * x 0 + Real.sin φ * x 1 ∧
      x 0 ^ 2 + x 1 ^ 2 + x 2 ^ 2 ≤ 1} = (MeasurableEquiv.piFinSuccAbove (fun _ : Fin 3 => ℝ) 2) ⁻¹' T := by
    ext x
    rfl
  rw [e, (volume_preserving_piFinSuccAbove (fun _ : Fin 3 => ℝ) 2).measure_preimage hT.nullMeasurableSet]
  rw [Measure.volume_eq_prod, Measure.prod_apply hT]
  have slice : ∀ z : ℝ, volume (Prod.mk z ⁻¹' T) = (Icc (-1) 1).indicator (fun z => ENNReal.ofReal ((Real.pi - φ) * (1 - z ^ 2) / 2)) z := by
    intro z
    set U := {p : ℝ × ℝ | 0 ≤ p.1 ∧ 0 ≤ Real.cos φ * p.1 + Real.sin φ * p.2 ∧ p.1 ^ 2 + p.2 ^ 2 ≤ 1 - z ^ 2} with hU
    have e2 : Prod.mk z ⁻¹' T = (MeasurableEquiv.finTwoArrow (α := ℝ)) ⁻¹' U := by
      ext p
      simp only [T, U, mem_preimage, mem_ofPred_eq, MeasurableEquiv.finTwoArrow_apply, le_sub_iff_add_le]
    have hUm : MeasurableSet U := by
      exact measurableSet_le3 (by fun_prop) (by fun_prop) (by fun_prop)
    rw [e2, (volume_preserving_finTwoArrow ℝ).measure_preimage hUm.nullMeasurableSet]
    by_cases hz : z ∈ Icc (-1 : ℝ) 1
    · rw [indicator_of_mem hz, hU, volume_sector φ _ h0 h1]
      nlinarith [hz.1, hz.2]
    · rw [indicator_of_notMem hz]
      have : U = ∅ := by
        ext p
        simp only [U, mem_ofPred_eq, mem_empty_iff_false, iff_false]
        rintro ⟨-, -, h3⟩
        apply hz
        have : z ^ 2 ≤ 1 := by nlinarith [sq_nonneg p.1, sq_nonneg p.2]
        exact ⟨by nlinarith, by nlinarith⟩
      rw [this, measure_empty]
  simp only [slice]
  rw [lintegral_indicator measurableSet_Icc, ← ofReal_integral_eq_lintegral_ofReal]
  · congr 1
    rw [integral_Icc_eq_integral_Ioc, ← intervalIntegral.integral_of_le (by norm_num)]
    have : ∀ z : ℝ, (Real.pi - φ) * (1 - z ^ 2) / 2 = (Real.pi - φ) / 2 * (1 - z ^ 2) := fun z => by ring
    simp only [this]
    rw [intervalIntegral.integral_const_mul, intervalIntegral.integral_sub (by simp) (Continuous.intervalIntegrable (by fun_prop) _ _), integral_pow]
    simp
    ring
  · exact (Continuous.integrableOn_Icc (by fun_prop))
  · filter_upwards [ae_restrict_mem measurableSet_Icc] with z hz
    have : 0 ≤ 1 - z ^ 2 := by nlinarith [hz.1, hz.2]
    have : 0 ≤ (Real.pi - φ) * (1 - z ^ 2) := mul_nonneg (by linarith) this
    show (0:ℝ) ≤ _
    linarith

end Verif
