/-
The Lebesgue measure of a simplex: the corner simplex has measure `1 / n!`, every other simplex is
an affine image of it.
-/
import Mathlib.MeasureTheory.Measure.Lebesgue.VolumeOfBalls
import Mathlib.Analysis.Convex.StdSimplex
import Mathlib.LinearAlgebra.Matrix.ToLin

namespace Verif

open MeasureTheory

/-- the simplex with corners at the origin and at the unit vectors -/
def cornerSimplex (n : Nat) : Set (Fin n → ℝ) := {x | (∀ i, 0 ≤ x i) ∧ ∑ i, x i ≤ 1}

/-- the part of the cross polytope in the orthant given by signs -/
def orthantPart (n : Nat) (s : Fin n → Bool) : Set (Fin n → ℝ) :=
  {x | (∀ i, if s i then 0 ≤ x i else x i ≤ 0) ∧ ∑ i, |x i| ≤ 1}

theorem orthantPart_closed (n : Nat) (s : Fin n → Bool) : IsClosed (orthantPart n s) := by
  have h : orthantPart n s = (⋂ i, {x : Fin n → ℝ | if s i then 0 ≤ x i else x i ≤ 0}) ∩
      {x | ∑ i, |x i| ≤ 1} := by
    ext x
    simp [orthantPart]
  rw [h]
  refine IsClosed.inter (isClosed_iInter fun i => ?_) ?_
  · cases s i
    · simpa using isClosed_le (continuous_apply i) continuous_const
    · simpa using isClosed_le continuous_const (continuous_apply i)
  · exact isClosed_le (continuous_finsetSum _ fun i _ => (continuous_apply i).abs)
      continuous_const

theorem orthantPart_eq (n : Nat) (s : Fin n → Bool) :
    orthantPart n s =
      (Matrix.toLin' (Matrix.diagonal fun i => if s i then (1 : ℝ) else -1)) '' cornerSimplex n := by
  have hv : ∀ (x : Fin n → ℝ) (i : Fin n),
      (Matrix.toLin' (Matrix.diagonal fun i => if s i then (1 : ℝ) else -1)) x i =
        (if s i then 1 else -1) * x i := by
    intro x i
    rw [Matrix.toLin'_apply, Matrix.mulVec_diagonal]
  ext y
  constructor
  · rintro ⟨h1, h2⟩
    refine ⟨fun i => |y i|, ⟨fun i => abs_nonneg _, h2⟩, ?_⟩
    ext i
    rw [hv]
    have := h1 i
    by_cases hs : s i
    · simp only [hs, if_true] at this ⊢
      rw [abs_of_nonneg this, one_mul]
    · simp only [hs] at this ⊢
      rw [if_neg (by simp)] at this ⊢
      rw [abs_of_nonpos this]
      ring
  · rintro ⟨x, ⟨h1, h2⟩, rfl⟩
    refine ⟨fun i => ?_, ?_⟩
    · rw [hv]
      by_cases hs : s i
      · simp only [hs, if_true, one_mul]
        exact h1 i
      · simp only [hs]
        have := h1 i
        simpa using this
    · calc ∑ i, |(Matrix.toLin' (Matrix.diagonal fun i => if s i then (1 : ℝ) else -1)) x i|
          = ∑ i, x i := Finset.sum_congr rfl fun i _ => by
            rw [hv, abs_mul, abs_of_nonneg (h1 i)]
            by_cases hs : s i <;> simp [hs]
        _ ≤ 1 := h2

theorem volume_orthantPart (n : Nat) (s : Fin n → Bool) :
    volume (orthantPart n s) = volume (cornerSimplex n) := by
  rw [orthantPart_eq, Measure.addHaar_image_linearMap, LinearMap.det_toLin', Matrix.det_diagonal,
    Finset.abs_prod]
  rw [Finset.prod_eq_one, ENNReal.ofReal_one, one_mul]
  intro i _
  by_cases hs : s i <;> simp [hs]

theorem orthants_disjoint (n : Nat) (s t : Fin n → Bool) (h : s ≠ t) :
    AEDisjoint volume (orthantPart n s) (orthantPart n t) := by
  obtain ⟨i, hi⟩ : ∃ i, s i ≠ t i := by
    by_contra hc
    push Not at hc
    exact h (funext hc)
  refine measure_mono_null (t := {x : Fin n → ℝ | x i = 0}) ?_ ?_
  · rintro x ⟨⟨h1, _⟩, ⟨h2, _⟩⟩
    have a := h1 i
    have b := h2 i
    cases hs : s i <;> cases ht : t i <;> simp only [hs, ht] at a b hi
    · exact absurd rfl hi
    · exact le_antisymm (by simpa using a) (by simpa using b)
    · exact le_antisymm (by simpa using b) (by simpa using a)
    · exact absurd rfl hi
  · exact Measure.pi_hyperplane (fun _ => volume) i 0

theorem volume_cornerSimplex (n : Nat) :
    volume (cornerSimplex n) = ENNReal.ofReal (1 / (n.factorial : ℝ)) := by
  rcases Nat.eq_zero_or_pos n with rfl | hn
  · have : cornerSimplex 0 = Set.univ := by
      ext x
      simp [cornerSimplex]
    rw [this, volume_pi, Measure.pi_of_empty]
    simp
  have : Nonempty (Fin n) := ⟨⟨0, hn⟩⟩
  have hu : (⋃ s ∈ (Finset.univ : Finset (Fin n → Bool)), orthantPart n s) =
      {x : Fin n → ℝ | (∑ i, |x i| ^ (1 : ℝ)) ^ (1 / (1 : ℝ)) ≤ 1} := by
    ext x
    simp only [Finset.mem_univ, Set.iUnion_true, Set.mem_iUnion, Set.mem_ofPred_eq, Real.rpow_one,
      div_one]
    constructor
    · rintro ⟨s, hs⟩
      exact hs.2
    · intro hx
      refine ⟨fun i => decide (0 ≤ x i), fun i => ?_, hx⟩
      by_cases h0 : 0 ≤ x i
      · simp [h0]
      · simp [h0, le_of_lt (not_le.mp h0)]
  have hsum : volume (⋃ s ∈ (Finset.univ : Finset (Fin n → Bool)), orthantPart n s) =
      (2 ^ n : ENNReal) * volume (cornerSimplex n) := by
    rw [measure_biUnion_finset₀ (fun s _ t _ hst => orthants_disjoint n s t hst)
      (fun s _ => (orthantPart_closed n s).measurableSet.nullMeasurableSet)]
    simp [volume_orthantPart]
  rw [hu, volume_sum_rpow_le (Fin n) le_rfl] at hsum
  simp only [ENNReal.ofReal_one, one_pow, one_mul, Fintype.card_fin, div_one] at hsum
  have hg : Real.Gamma (1 + 1) = 1 := by
    have := Real.Gamma_nat_eq_factorial 1
    simpa using this
  have hg' : Real.Gamma ((n : ℝ) + 1) = (n.factorial : ℝ) := Real.Gamma_nat_eq_factorial n
  rw [hg, hg', mul_one] at hsum
  have h2 : (2 ^ n : ENNReal) ≠ 0 := by simp
  have h2' : (2 ^ n : ENNReal) ≠ ⊤ := by simp
  have e : ENNReal.ofReal ((2 : ℝ) ^ n / (n.factorial : ℝ)) =
      (2 ^ n : ENNReal) * ENNReal.ofReal (1 / (n.factorial : ℝ)) := by
    rw [div_eq_mul_one_div, ENNReal.ofReal_mul (by positivity), ENNReal.ofReal_pow (by norm_num)]
    simp
  rw [e] at hsum
  exact ((ENNReal.mul_right_inj h2 h2').1 hsum).symm

/-- every simplex is the image of the corner simplex under the affine map of its edges -/
theorem simplex_eq_image {n d : Nat} (p : Fin (n + 1) → Fin d → ℝ) :
    convexHull ℝ (Set.range p) =
      (fun x : Fin n → ℝ => p 0 + ∑ i, x i • (p i.succ - p 0)) '' cornerSimplex n := by
  apply Set.Subset.antisymm
  · refine convexHull_min ?_ ?_
    · rintro _ ⟨i, rfl⟩
      refine Fin.cases ?_ (fun j => ?_) i
      · exact ⟨0, ⟨fun i => le_rfl, by simp⟩, by simp⟩
      · refine ⟨Pi.single j 1, ⟨fun i => ?_, by simp⟩, ?_⟩
        · by_cases h : i = j
          · subst h; simp
          · simp [h]
        · show p 0 + ∑ i, (Pi.single j (1 : ℝ) : Fin n → ℝ) i • (p i.succ - p 0) = _
          rw [Finset.sum_eq_single j]
          · simp
          · intro b _ hb
            simp [hb]
          · simp
    · rintro _ ⟨x, ⟨hx1, hx2⟩, rfl⟩ _ ⟨y, ⟨hy1, hy2⟩, rfl⟩ a b ha hb hab
      refine ⟨a • x + b • y, ⟨fun i => ?_, ?_⟩, ?_⟩
      · have := hx1 i
        have := hy1 i
        simp only [Pi.add_apply, Pi.smul_apply, smul_eq_mul]
        positivity
      · simp only [Pi.add_apply, Pi.smul_apply, smul_eq_mul, Finset.sum_add_distrib,
          ← Finset.mul_sum]
        nlinarith
      · ext k
        simp only [Pi.add_apply, Pi.smul_apply, smul_eq_mul, Finset.sum_apply, Pi.sub_apply,
          add_mul, Finset.sum_add_distrib, mul_assoc, ← Finset.mul_sum, mul_add]
        have : p 0 k = a * p 0 k + b * p 0 k := by rw [← add_mul, hab, one_mul]
        linarith
  · rintro _ ⟨x, ⟨hx1, hx2⟩, rfl⟩
    refine mem_convexHull_of_exists_fintype (ι := Fin (n + 1))
      (Fin.cons (1 - ∑ i, x i) x) p ?_ ?_ (fun i => Set.mem_range_self i) ?_
    · intro i
      refine Fin.cases ?_ (fun j => ?_) i
      · simp only [Fin.cons_zero]; linarith
      · simpa using hx1 j
    · rw [Fin.sum_univ_succ]
      simp
    · rw [Fin.sum_univ_succ]
      simp only [Fin.cons_zero, Fin.cons_succ, smul_sub, Finset.sum_sub_distrib, sub_smul, one_smul,
        Finset.sum_smul]
      abel

/-- C55: the Lebesgue measure of the simplex spanned by `n + 1` points of `n`-space -/
theorem volume_simplex {n : Nat} (p : Fin (n + 1) → Fin n → ℝ) :
    volume (convexHull ℝ (Set.range p)) =
      ENNReal.ofReal (|(Matrix.of fun i j => p i.succ j - p 0 j).det| / (n.factorial : ℝ)) := by
  have e : (fun x : Fin n → ℝ => p 0 + ∑ i, x i • (p i.succ - p 0)) =
      (fun y => p 0 + y) ∘
        (Matrix.toLin' (Matrix.of fun i j => p i.succ j - p 0 j).transpose) := by
    funext x
    simp only [Function.comp, Matrix.toLin'_apply]
    congr 1
    ext k
    simp [Matrix.mulVec, dotProduct, mul_comm]
  rw [simplex_eq_image, e, Set.image_comp, Set.image_add_left, measure_preimage_add,
    Measure.addHaar_image_linearMap, LinearMap.det_toLin', Matrix.det_transpose,
    volume_cornerSimplex, ← ENNReal.ofReal_mul (abs_nonneg _), mul_one_div]

end Verif
