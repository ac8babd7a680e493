/-
Every real matrix with at least as many rows as columns has a singular value decomposition.
-/
import Verif.Spec.Circumcenter
import Verif.Lemmas.Spectral
import Mathlib.Analysis.InnerProductSpace.PiL2
import Mathlib.Data.Fin.Tuple.Sort

namespace Verif

open Verif.Spec Matrix

theorem exists_svd {a b : Nat} (hba : b ≤ a) (A : Matrix (Fin a) (Fin b) ℝ) :
    ∃ (u : Matrix (Fin a) (Fin a) ℝ) (s : Fin (min a b) → ℝ) (v : Matrix (Fin b) (Fin b) ℝ), IsSvd A u s v := by
  obtain ⟨e, w, h1, h2, h3⟩ := exists_eigh (Aᵀ * A) (by rw [transpose_mul, transpose_transpose])
  set σ := Tuple.sort fun j => - e j with hσ
  have hmono : ∀ j k, j ≤ k → e (σ k) ≤ e (σ j) := by
    intro j k hjk
    have := Tuple.monotone_sort (fun j => - e j) hjk
    simp only [Function.comp, ← hσ] at this
    linarith
  set C : Matrix (Fin a) (Fin b) ℝ := Matrix.of fun i j => (A * w) i (σ j) with hC
  have hprod : ∀ j k, ∑ i, C i j * C i k = if j = k then e (σ j) else 0 := by
    intro j k
    have hd : (A * w)ᵀ * (A * w) = diagonal e := by
      calc (A * w)ᵀ * (A * w) = wᵀ * (Aᵀ * A) * w := by rw [transpose_mul]; simp only [Matrix.mul_assoc]
        _ = wᵀ * w * diagonal e * (wᵀ * w) := by rw [h3]; simp only [Matrix.mul_assoc]
        _ = diagonal e := by rw [h2, Matrix.one_mul, Matrix.mul_one]
    have := congrFun (congrFun hd (σ j)) (σ k)
    rw [mul_apply, diagonal_apply] at this
    simp only [transpose_apply] at this
    simp only [hC, of_apply]
    rw [this]
    simp only [σ.injective.eq_iff]
  have he : ∀ j, 0 ≤ e (σ j) := by
    intro j
    have := hprod j j
    rw [if_pos rfl] at this
    rw [← this]
    exact Finset.sum_nonneg fun i _ => mul_self_nonneg _
  set q : Fin a → EuclideanSpace ℝ (Fin a) := fun i =>
    if h : i.val < b then WithLp.toLp 2 fun k => C k ⟨i.val, h⟩ / Real.sqrt (e (σ ⟨i.val, h⟩)) else 0 with hq
  set S : Set (Fin a) := {i | ∃ h : i.val < b, e (σ ⟨i.val, h⟩) ≠ 0} with hS
  have hqa : ∀ (i : Fin a) (h : i.val < b), q i =
      WithLp.toLp 2 fun k => C k ⟨i.val, h⟩ / Real.sqrt (e (σ ⟨i.val, h⟩)) := fun i h => dif_pos h
  have hon : Orthonormal ℝ (S.domRestrict q) := by
    rw [orthonormal_iff_ite]
    rintro ⟨i, hi, hei⟩ ⟨j, hj, hej⟩
    change inner ℝ (q i) (q j) = _
    rw [hqa i hi, hqa j hj, EuclideanSpace.inner_eq_star_dotProduct]
    simp only [dotProduct, star_trivial, Subtype.mk.injEq]
    have hx : ∀ x, C x ⟨j.val, hj⟩ / Real.sqrt (e (σ ⟨j.val, hj⟩)) * (C x ⟨i.val, hi⟩ / Real.sqrt (e (σ ⟨i.val, hi⟩))) =
        C x ⟨j.val, hj⟩ * C x ⟨i.val, hi⟩ / (Real.sqrt (e (σ ⟨j.val, hj⟩)) * Real.sqrt (e (σ ⟨i.val, hi⟩))) :=
      fun x => div_mul_div_comm _ _ _ _
    have hsum := hprod ⟨j.val, hj⟩ ⟨i.val, hi⟩
    by_cases hij : i = j
    · subst hij
      rw [if_pos rfl] at hsum ⊢
      calc _ = (∑ x, C x ⟨i.val, hi⟩ * C x ⟨i.val, hi⟩) /
            (Real.sqrt (e (σ ⟨i.val, hi⟩)) * Real.sqrt (e (σ ⟨i.val, hi⟩))) := by
              rw [Finset.sum_div]
              exact Finset.sum_congr rfl fun x _ => hx x
        _ = 1 := by rw [hsum, Real.mul_self_sqrt (he _), div_self hei]
    · rw [if_neg (fun h => hij (Fin.ext (by simpa using (congrArg Fin.val h).symm)))] at hsum
      rw [if_neg hij]
      calc _ = (∑ x, C x ⟨j.val, hj⟩ * C x ⟨i.val, hi⟩) /
            (Real.sqrt (e (σ ⟨j.val, hj⟩)) * Real.sqrt (e (σ ⟨i.val, hi⟩))) := by
              rw [Finset.sum_div]
              exact Finset.sum_congr rfl fun x _ => hx x
        _ = 0 := by rw [hsum, zero_div]
  obtain ⟨B, hB⟩ := hon.exists_orthonormalBasis_extension_of_card_eq (by simp)
  have hcol : ∀ (j : Fin b) (x : Fin a), C x j = B ⟨j.val, by omega⟩ x * Real.sqrt (e (σ j)) := by
    intro j x
    by_cases h0 : e (σ j) = 0
    · have := hprod j j
      rw [if_pos rfl, h0] at this
      have := (Finset.sum_eq_zero_iff_of_nonneg fun i _ => mul_self_nonneg (C i j)).1 this x (Finset.mem_univ x)
      rw [h0, Real.sqrt_zero, mul_zero]
      exact mul_self_eq_zero.1 this
    · rw [hB ⟨j.val, by omega⟩ ⟨j.2, h0⟩]
      simp only [hq, dif_pos j.2]
      have : Real.sqrt (e (σ j)) ≠ 0 := fun h => h0 ((Real.sqrt_eq_zero (he j)).1 h)
      change _ = C x j / _ * _
      field_simp
  have hmin : min a b = b := by omega
  refine ⟨Matrix.of fun x i => B i x, fun j => Real.sqrt (e (σ (Fin.cast hmin j))),
    Matrix.of fun j k => w k (σ j), ⟨fun i k => ?_, fun i k => ?_, fun i k => ?_, fun j => Real.sqrt_nonneg _,
    fun j k hjk => Real.sqrt_le_sqrt (hmono _ _ hjk)⟩⟩
  · have := orthonormal_iff_ite.1 B.orthonormal k i
    rw [EuclideanSpace.inner_eq_star_dotProduct] at this
    simp only [dotProduct, star_trivial] at this
    simp only [of_apply]
    rw [this]
    simp only [eq_comm]
  · have := congrFun (congrFun h2 (σ i)) (σ k)
    rw [mul_apply, one_apply] at this
    simp only [of_apply]
    simp only [transpose_apply] at this
    rw [this]
    simp only [σ.injective.eq_iff]
  · have hA : A = A * w * wᵀ := by rw [Matrix.mul_assoc, h1, Matrix.mul_one]
    have h4 : A i k = ∑ j, C i j * w k (σ j) := by
      conv_lhs => rw [hA]
      rw [mul_apply, ← Equiv.sum_comp σ]
      rfl
    rw [h4, ← Equiv.sum_comp (finCongr hmin)]
    refine Finset.sum_congr rfl fun j _ => ?_
    rw [hcol]
    simp only [of_apply]
    rfl

end Verif
