/-
Orthogonal simplices: how the volume of a domain splits into a primal and a dual part.
-/
import Verif.Lemmas.MetricValues

set_option linter.unusedSectionVars false

namespace Verif

open Verif.Model Verif.Spec Matrix

/-- the corner `a` first, then those before it, then those after it -/
def pivotRow (a b : Nat) : List Nat := a :: (List.range a ++ List.range' (a + 1) b)

theorem pivotRow_perm (a b : Nat) : (List.range (a + b + 1)).Perm (pivotRow a b) := by
  have h : List.range (a + b + 1) = List.range a ++ a :: List.range' (a + 1) b := by
    rw [List.range_eq_range', List.range_eq_range', show a + b + 1 = a + (1 + b) by omega,
      ← List.range'_append_1, ← List.range'_append_1]
    simp
  rw [h]
  exact List.perm_middle

theorem pivotRow_length (a b : Nat) : (pivotRow a b).length = a + b + 1 := by simp [pivotRow]

theorem pivotRow_nodup (a b : Nat) : (pivotRow a b).Nodup := (pivotRow_perm a b).nodup_iff.1 List.nodup_range

theorem pivotRow_zero (a b : Nat) (h : 0 < (pivotRow a b).length) : (pivotRow a b)[0] = a := rfl

theorem pivotRow_left (a b k : Nat) (hk : k < a) (h : k + 1 < (pivotRow a b).length) :
    (pivotRow a b)[k + 1] = k := by
  simp only [pivotRow, List.getElem_cons_succ]
  rw [List.getElem_append_left (by simpa using hk), List.getElem_range]

theorem pivotRow_right (a b k : Nat) (h : a + k + 1 < (pivotRow a b).length) :
    (pivotRow a b)[a + k + 1] = a + (k + 1) := by
  simp only [pivotRow, List.getElem_cons_succ]
  rw [List.getElem_append_right (by simp)]
  simp
  omega

/-- the volume of a simplex with a corner at which two faces meet at a right angle -/
theorem vol_orthogonal {D : Nat} (X : Nat → Vec ℝ D) (a b : Nat)
    (h : ∀ i ≤ a, ∀ j, a ≤ j → j ≤ a + b → ∑ c, (X i c - X a c) * (X j c - X a c) = 0) :
    vol (fun r : Fin (a + b + 1) => X r) * ((a + b).factorial : ℝ) =
      (vol (fun r : Fin (a + 1) => X r) * (a.factorial : ℝ)) *
        (vol (fun r : Fin (b + 1) => X (a + r)) * (b.factorial : ℝ)) := by
  have h1 : vol (fun r : Fin (a + b + 1) => X r) =
      vol (fun r : Fin (a + b + 1) => X ((pivotRow a b)[r]'(by rw [pivotRow_length]; exact r.2))) := by
    have := vol_perm (M := a + b) X (List.range (a + b + 1)) (pivotRow a b) (by simp)
      (pivotRow_length a b) (pivotRow_perm a b) (pivotRow_nodup a b)
    simpa using this
  have h2 : vol (fun r : Fin (a + 1) => X r) =
      vol (fun r : Fin (a + 1) => X ((pivotRow a 0)[r]'(by rw [pivotRow_length]; exact r.2))) := by
    have := vol_perm (M := a) X (List.range (a + 0 + 1)) (pivotRow a 0) (by simp)
      (pivotRow_length a 0) (pivotRow_perm a 0) (pivotRow_nodup a 0)
    simpa using this
  rw [h1, h2]
  unfold vol
  rw [div_mul_cancel₀ _ (Nat.cast_ne_zero.2 (Nat.factorial_ne_zero _)),
    div_mul_cancel₀ _ (Nat.cast_ne_zero.2 (Nat.factorial_ne_zero _)),
    div_mul_cancel₀ _ (Nat.cast_ne_zero.2 (Nat.factorial_ne_zero _)), ← Real.sqrt_mul (abs_nonneg _), ← abs_mul]
  congr 2
  set E := edgeRows (Matrix.of fun r : Fin (a + b + 1) =>
    X ((pivotRow a b)[r]'(by rw [pivotRow_length]; exact r.2))) with hE
  set E1 := edgeRows (Matrix.of fun r : Fin (a + 1) =>
    X ((pivotRow a 0)[r]'(by rw [pivotRow_length]; exact r.2))) with hE1
  set E2 := edgeRows (Matrix.of fun r : Fin (b + 1) => X (a + r)) with hE2
  have eL : ∀ (i : Fin a) c, E (Fin.castAdd b i) c = X i c - X a c := by
    intro i c
    simp only [hE, edgeRows, of_apply]
    have : (pivotRow a b)[((Fin.castAdd b i).succ : Fin (a + b + 1)).val]'(by
        rw [pivotRow_length]; exact (Fin.castAdd b i).succ.2) = i.val := pivotRow_left a b i i.2 _
    exact congrArg₂ (fun (u v : Vec ℝ D) => u c - v c) (congrArg X this) rfl
  have eR : ∀ (i : Fin b) c, E (Fin.natAdd a i) c = X (a + (i + 1)) c - X a c := by
    intro i c
    simp only [hE, edgeRows, of_apply]
    have : (pivotRow a b)[((Fin.natAdd a i).succ : Fin (a + b + 1)).val]'(by
        rw [pivotRow_length]; exact (Fin.natAdd a i).succ.2) = a + (i.val + 1) := pivotRow_right a b i _
    exact congrArg₂ (fun (u v : Vec ℝ D) => u c - v c) (congrArg X this) rfl
  have e1 : ∀ (i : Fin a) c, E1 i c = X i c - X a c := by
    intro i c
    simp only [hE1, edgeRows, of_apply]
    have : (pivotRow a 0)[(i.succ : Fin (a + 1)).val]'(by
        rw [pivotRow_length]; exact i.succ.2) = i.val := pivotRow_left a 0 i i.2 _
    exact congrArg₂ (fun (u v : Vec ℝ D) => u c - v c) (congrArg X this) rfl
  have e2 : ∀ (i : Fin b) c, E2 i c = X (a + (i + 1)) c - X a c := by
    intro i c
    simp [hE2, edgeRows]
  have hb : (E * Eᵀ).submatrix finSumFinEquiv finSumFinEquiv =
      Matrix.fromBlocks (E1 * E1ᵀ) 0 0 (E2 * E2ᵀ) := by
    ext i j
    rcases i with i | i <;> rcases j with j | j
    · simp [mul_apply, eL, e1]
    · simp only [submatrix_apply, finSumFinEquiv_apply_left, finSumFinEquiv_apply_right, mul_apply,
        transpose_apply, eL, eR, fromBlocks_apply₁₂, Matrix.zero_apply]
      exact h i (by omega) _ (by omega) (by omega)
    · simp only [submatrix_apply, finSumFinEquiv_apply_left, finSumFinEquiv_apply_right, mul_apply,
        transpose_apply, eL, eR, fromBlocks_apply₂₁, Matrix.zero_apply]
      rw [← h j (by omega) (a + (i + 1)) (by omega) (by omega)]
      exact Finset.sum_congr rfl fun c _ => mul_comm _ _
    · simp [mul_apply, eR, e2]
  rw [← det_submatrix_equiv_self finSumFinEquiv (E * Eᵀ), hb, det_fromBlocks_zero₂₁]

/-- the way from the circumcenter of a face to that of a larger face is orthogonal to the face -/
theorem centers_orthogonal {D : Nat} {V : List (Vec ℝ D)} {y : Finset Nat → Nat → ℝ} {ctr : Finset Nat → Fin D → ℝ}
    {R S T : Finset Nat} (hR : CenterCoords V R (y R) (ctr R)) (hS : CenterCoords V S (y S) (ctr S))
    (hT : CenterCoords V T (y T) (ctr T)) (hRS : R ⊆ S) (hST : S ⊆ T) (hne : S.Nonempty) :
    ∑ c, (ctr R c - ctr S c) * (ctr T c - ctr S c) = 0 := by
  obtain ⟨s, hs⟩ := hne
  set g : (Fin D → ℝ) → ℝ := fun x => ∑ c, x c * (ctr T c - ctr S c) with hg
  have hconst : ∀ v ∈ S, g (position V v) = g (position V s) := by
    intro v hv
    have h1 := hS.equidistant v hv s hs
    have h2 := hT.equidistant v (hST hv) s (hST hs)
    have key : ∀ x : Fin D → ℝ, 2 * g x = dist2 (ctr S) x - dist2 (ctr T) x +
        (∑ c, (ctr T c ^ 2 - ctr S c ^ 2)) := by
      intro x
      simp only [hg, dist2, Finset.mul_sum, ← Finset.sum_sub_distrib, ← Finset.sum_add_distrib]
      exact Finset.sum_congr rfl fun c _ => by ring
    have k1 := key (position V v)
    have k2 := key (position V s)
    linarith
  have hcomb : ∀ (Q : Finset Nat), Q ⊆ S → CenterCoords V Q (y Q) (ctr Q) →
      g (ctr Q) = g (position V s) := by
    intro Q hQ hc
    have : g (ctr Q) = ∑ v ∈ Q, y Q v * g (position V v) := by
      simp only [hg, Finset.mul_sum]
      rw [Finset.sum_comm]
      refine Finset.sum_congr rfl fun c _ => ?_
      rw [hc.point c, Finset.sum_mul]
      exact Finset.sum_congr rfl fun v _ => by ring
    rw [this, Finset.sum_congr rfl fun v hv => by rw [hconst v (hQ hv)], ← Finset.sum_mul, hc.one, one_mul]
  have e1 := hcomb R hRS hR
  have e2 := hcomb S (Finset.Subset.refl S) hS
  have : ∑ c, (ctr R c - ctr S c) * (ctr T c - ctr S c) = g (ctr R) - g (ctr S) := by
    simp only [hg, ← Finset.sum_sub_distrib]
    exact Finset.sum_congr rfl fun c _ => by ring
  rw [this, e1, e2, sub_self]

end Verif
