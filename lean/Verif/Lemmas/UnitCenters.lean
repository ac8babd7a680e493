/-
The coordinates that `circumcenter_barycentric` finds for single points and for edges between unit vectors,
with any cut-off that keeps eigenvalues within a factor of twelve.
-/
import Verif.Model.Metric
import Verif.Spec.Circumcenter
import Verif.Spec.Spherical
import Verif.Lemmas.SmoothOperator

set_option linter.unusedSectionVars false

namespace Verif

open Model Spec

variable {P D : Nat}

theorem eigen_eq {n : Nat} {A : Matrix (Fin n) (Fin n) ℝ} {e : Eigh n ℝ} (h : IsEigh A e.v e.w) (i j : Fin n) :
    ∑ k, A i k * e.w k j = e.v j * e.w i j := by
  have : ∀ k, A i k * e.w k j = ∑ m, e.w i m * e.v m * (e.w k m * e.w k j) := by
    intro k
    rw [h.decomp i k, Finset.sum_mul]
    exact Finset.sum_congr rfl fun m _ => by ring
  rw [Finset.sum_congr rfl fun k _ => this k, Finset.sum_comm]
  have h2 : ∀ m, ∑ k, e.w i m * e.v m * (e.w k m * e.w k j) = e.w i m * e.v m * if m = j then 1 else 0 := by
    intro m
    rw [← Finset.mul_sum, h.cols m j]
  rw [Finset.sum_congr rfl fun m _ => h2 m]
  simp [mul_comm]

/-- an eigenvalue is not larger than the sums of the sizes of the entries of the rows -/
theorem eigen_le {n : Nat} {A : Matrix (Fin n) (Fin n) ℝ} {e : Eigh n ℝ} (h : IsEigh A e.v e.w) {B : ℝ}
    (hB : ∀ i, ∑ k, |A i k| ≤ B) (j : Fin n) : |e.v j| ≤ B := by
  obtain ⟨i, _, hi⟩ := Finset.exists_max_image Finset.univ (fun i => |e.w i j|) ⟨j, Finset.mem_univ j⟩
  have hpos : 0 < |e.w i j| := by
    rcases (abs_nonneg (e.w i j)).lt_or_eq with hlt | heq
    · exact hlt
    · exfalso
      have hz : ∀ k, e.w k j = 0 := fun k => by
        have := hi k (Finset.mem_univ k)
        rw [← heq] at this
        exact abs_eq_zero.mp (le_antisymm this (abs_nonneg _))
      have := h.cols j j
      simp [hz] at this
  have key : |e.v j| * |e.w i j| ≤ B * |e.w i j| := by
    rw [← abs_mul, ← eigen_eq h i j]
    refine (Finset.abs_sum_le_sum_abs _ _).trans ?_
    refine le_trans (Finset.sum_le_sum fun k _ => ?_) (b := ∑ k, |A i k| * |e.w i j|) ?_
    · rw [abs_mul]
      exact mul_le_mul_of_nonneg_left (hi k (Finset.mem_univ k)) (abs_nonneg _)
    · rw [← Finset.sum_mul]
      exact mul_le_mul_of_nonneg_right (hB i) hpos.le
  exact le_of_mul_le_mul_right key hpos

theorem productMatrix_symmetric (b : Matrix (Fin P) (Fin D) ℝ) : (productMatrix b).transpose = productMatrix b := by
  ext i k
  simp only [Matrix.transpose_apply, productMatrix, Matrix.of_apply]
  split <;> split <;> first | rfl | skip
  congr 1
  exact Finset.sum_congr rfl fun x _ => mul_comm (b _ x) (b _ x)

theorem least_some (eigh : Matrix (Fin (P + 1)) (Fin (P + 1)) ℝ → Eigh (P + 1) ℝ)
    (hE : ∀ M, M.transpose = M → IsEigh M (eigh M).v (eigh M).w)
    (batch : List (Matrix (Fin P) (Fin D) ℝ × Option (Vec ℝ P))) (hne : batch ≠ []) (hP : 0 < P) :
    ∃ least, (absInverses (batch.map fun b => eigh (productMatrix b.1))).min? = some least := by
  obtain ⟨b, bs, rfl⟩ := List.exists_cons_of_ne_nil hne
  have : ∃ j, (eigh (productMatrix b.1)).v j ≠ 0 := by
    by_contra hcon
    push Not at hcon
    have := (hE _ (productMatrix_symmetric b.1)).decomp ⟨0, by omega⟩ (Fin.last P)
    simp only [hcon, mul_zero, zero_mul, Finset.sum_const_zero] at this
    simp [productMatrix, hP] at this
  obtain ⟨j, hj⟩ := this
  have hx : |1 / (eigh (productMatrix b.1)).v j| ∈
      absInverses ((b :: bs).map fun b => eigh (productMatrix b.1)) := by
    simp only [absInverses, List.mem_filterMap, List.mem_flatMap, List.mem_map]
    exact ⟨_, ⟨_, ⟨b, by simp, rfl⟩, ⟨j, List.mem_finRange j, rfl⟩⟩, if_neg hj⟩
  cases hm : (absInverses ((b :: bs).map fun b => eigh (productMatrix b.1))).min? with
  | none => rw [List.min?_eq_none_iff.mp hm] at hx; simp at hx
  | some least => exact ⟨least, rfl⟩

theorem primalPosition_total (eigh : Matrix (Fin (P + 1)) (Fin (P + 1)) ℝ → Eigh (P + 1) ℝ)
    (hE : ∀ M, M.transpose = M → IsEigh M (eigh M).v (eigh M).w) (ratio : ℝ)
    (batch : List (Matrix (Fin P) (Fin D) ℝ × Option (Vec ℝ P))) (hne : batch ≠ []) (hP : 0 < P) :
    ∃ out, primalPosition eigh ratio batch = .ok out := by
  obtain ⟨least, hl⟩ := least_some eigh hE batch hne hP
  unfold primalPosition circumcenterBarycentric
  rw [hl]
  exact ⟨_, rfl⟩

/-- the coordinates, if every eigenvector that is cut off, and every one for the eigenvalue zero, is
orthogonal to a solution -/
theorem bary_of_solution (eigh : Matrix (Fin (P + 1)) (Fin (P + 1)) ℝ → Eigh (P + 1) ℝ)
    (hE : ∀ M, M.transpose = M → IsEigh M (eigh M).v (eigh M).w) (ratio B : ℝ) (hr : 0 < ratio)
    (batch : List (Matrix (Fin P) (Fin D) ℝ × Option (Vec ℝ P))) (hne : batch ≠ []) (hP : 0 < P)
    (hB : ∀ b ∈ batch, ∀ i, ∑ k, |productMatrix b.1 i k| ≤ B)
    (z : Matrix (Fin P) (Fin D) ℝ × Option (Vec ℝ P) → Vec ℝ (P + 1))
    (hz : ∀ b ∈ batch, ∀ i, ∑ k, productMatrix b.1 i k * z b k = productRhs b.1 b.2 i)
    (hcut : ∀ b ∈ batch, ∀ μ : ℝ, |μ| < B / ratio ∨ μ = 0 → ∀ w : Vec ℝ (P + 1),
      (∀ i, ∑ k, productMatrix b.1 i k * w k = μ * w i) → ∑ k, w k * z b k = 0) :
    circumcenterBarycentric eigh ratio batch = .ok (batch.map fun b i => z b i.castSucc) := by
  have hmem : ∀ x ∈ absInverses (batch.map fun b => eigh (productMatrix b.1)), 1 / B ≤ x := by
    intro x hx
    simp only [absInverses, List.mem_filterMap, List.mem_flatMap, List.mem_map] at hx
    obtain ⟨v, ⟨e, ⟨b, hb, rfl⟩, ⟨j, _, rfl⟩⟩, hv⟩ := hx
    split at hv
    · simp at hv
    · next hne0 =>
      obtain rfl := Option.some.inj hv
      have := eigen_le (hE _ (productMatrix_symmetric b.1)) (hB b hb) j
      rw [abs_div, abs_one]
      exact one_div_le_one_div_of_le (abs_pos.mpr hne0) this
  obtain ⟨least, hl⟩ := least_some eigh hE batch hne hP
  have hleast : 1 / B ≤ least := hmem least (List.min?_mem hl)
  unfold circumcenterBarycentric
  rw [hl]
  simp only
  congr 1
  refine List.map_congr_left fun b hb => ?_
  funext i
  have h := hE _ (productMatrix_symmetric b.1)
  set e := eigh (productMatrix b.1) with he
  -- the right-hand side in terms of the eigenvectors
  have hrhs : ∀ j, ∑ k, e.w k j * productRhs b.1 b.2 k = e.v j * ∑ k, e.w k j * z b k := by
    intro j
    have : ∀ k, e.w k j * productRhs b.1 b.2 k = ∑ m, (productMatrix b.1 m k * e.w k j) * z b m := by
      intro k
      rw [← hz b hb k, Finset.mul_sum]
      refine Finset.sum_congr rfl fun m _ => ?_
      have := congrFun (congrFun (productMatrix_symmetric b.1) m) k
      rw [Matrix.transpose_apply] at this
      rw [this]; ring
    rw [Finset.sum_congr rfl fun k _ => this k, Finset.sum_comm]
    have h2 : ∀ m, ∑ k, (productMatrix b.1 m k * e.w k j) * z b m = e.v j * (e.w m j * z b m) := by
      intro m
      rw [← Finset.sum_mul, eigen_eq h m j]; ring
    rw [Finset.sum_congr rfl fun m _ => h2 m, Finset.mul_sum]
  have hcalc : ∀ i' : Fin (P + 1), (∑ k, (∑ j, e.w i' j *
      (if e.v j = 0 ∨ |1 / e.v j| > least * ratio then 0 else 1 / e.v j) * e.w k j) * productRhs b.1 b.2 k)
      = z b i' := by
    intro i'
    have s1 : (∑ k, (∑ j, e.w i' j *
        (if e.v j = 0 ∨ |1 / e.v j| > least * ratio then 0 else 1 / e.v j) * e.w k j) * productRhs b.1 b.2 k)
        = ∑ j, e.w i' j * (if e.v j = 0 ∨ |1 / e.v j| > least * ratio then 0 else 1 / e.v j) *
          ∑ k, e.w k j * productRhs b.1 b.2 k := by
      simp only [Finset.sum_mul, Finset.mul_sum]
      rw [Finset.sum_comm]
      exact Finset.sum_congr rfl fun _ _ => Finset.sum_congr rfl fun _ _ => by ring
    rw [s1]
    have s2 : ∀ j, e.w i' j * (if e.v j = 0 ∨ |1 / e.v j| > least * ratio then 0 else 1 / e.v j) *
        (∑ k, e.w k j * productRhs b.1 b.2 k) = e.w i' j * ∑ k, e.w k j * z b k := by
      intro j
      rw [hrhs j]
      split
      · next hc =>
        have hsmall : |e.v j| < B / ratio ∨ e.v j = 0 := by
          rcases hc with hc | hc
          · exact Or.inr hc
          · by_cases h0 : e.v j = 0
            · exact Or.inr h0
            left
            have hp := abs_pos.mpr h0
            have hBp : 0 < B := lt_of_lt_of_le hp (eigen_le h (hB b hb) j)
            have : 1 / B * ratio < 1 / |e.v j| := by
              rw [abs_div, abs_one] at hc
              exact lt_of_le_of_lt (mul_le_mul_of_nonneg_right hleast hr.le) hc
            rw [lt_div_iff₀ hp] at this
            rw [lt_div_iff₀ hr]
            calc |e.v j| * ratio = B * (1 / B * ratio * |e.v j|) := by field_simp
              _ < B * 1 := mul_lt_mul_of_pos_left this hBp
              _ = B := mul_one B
        rw [hcut b hb (e.v j) hsmall (fun k => e.w k j) (fun i => eigen_eq h i j)]
        ring
      · next hc =>
        push Not at hc
        field_simp [hc.1]
    rw [Finset.sum_congr rfl fun j _ => s2 j]
    simp only [Finset.mul_sum]
    rw [Finset.sum_comm]
    have s3 : ∀ k, ∑ j, e.w i' j * (e.w k j * z b k) = (if i' = k then 1 else 0) * z b k := by
      intro k
      rw [← h.rows i' k, Finset.sum_mul]
      exact Finset.sum_congr rfl fun _ _ => by ring
    rw [Finset.sum_congr rfl fun k _ => s3 k]
    simp
  simp only [Matrix.of_apply]
  exact hcalc i.castSucc

/-- a single point of the unit sphere has the coordinate one -/
theorem primalPosition_point (eigh : Matrix (Fin 2) (Fin 2) ℝ → Eigh 2 ℝ)
    (hE : ∀ M, M.transpose = M → IsEigh M (eigh M).v (eigh M).w) {ratio : ℝ} (hr : 12 ≤ ratio)
    (pts : List (Fin 1 → Fin D → ℝ)) (hne : pts ≠ []) (hu : ∀ p ∈ pts, OnUnitSphere (p 0)) :
    primalPosition eigh ratio (pts.map fun p => (Matrix.of p, none)) = .ok (pts.map fun p => p 0) := by
  have hm : ∀ b ∈ pts.map (fun p => (Matrix.of p, (none : Option (Vec ℝ 1)))), b.2 = none ∧
      dot (b.1 0) (b.1 0) = 1 := by
    intro b hb
    obtain ⟨p, hp, rfl⟩ := List.mem_map.mp hb
    exact ⟨rfl, hu p hp⟩
  unfold primalPosition
  rw [bary_of_solution eigh hE ratio 3 (by linarith) _ (by simpa using hne) (by omega)
    (z := fun _ => ![1, -1])]
  · simp only [bind, Except.bind]
    congr 1
    rw [List.map_map, List.zipWith_map_left, List.zipWith_map_right, List.zipWith_self]
    refine List.map_congr_left fun p _ => ?_
    funext j
    simp
  · intro b hb i
    obtain ⟨h1, h2⟩ := hm b hb
    fin_cases i <;> simp [Fin.sum_univ_two, productMatrix, h2] <;> norm_num
  · intro b hb i
    obtain ⟨h1, h2⟩ := hm b hb
    fin_cases i <;> simp [Fin.sum_univ_two, productMatrix, productRhs, h1, h2] <;> norm_num
  · intro b hb μ hμ w hw
    obtain ⟨h1, h2⟩ := hm b hb
    have hs : |μ| ≤ 1 / 4 := by
      rcases hμ with h | rfl
      · refine h.le.trans ?_
        rw [div_le_div_iff₀ (by linarith) (by norm_num)]; linarith
      · norm_num
    have e0 := hw 0
    have e1 := hw 1
    simp [Fin.sum_univ_two, productMatrix, h2] at e0 e1
    obtain ⟨l1, l2⟩ := abs_le.mp hs
    have hk : (2 * μ + 1 - μ ^ 2) * w 1 = 0 := by rw [e1] at e0; linear_combination e0
    have hp : 2 * μ + 1 - μ ^ 2 ≠ 0 := by nlinarith
    have hw1 : w 1 = 0 := (mul_eq_zero.mp hk).resolve_left hp
    have hw0 : w 0 = 0 := by rw [e1, hw1, mul_zero]
    simp [Fin.sum_univ_two, hw1, hw0]

/-- the coordinates of an edge of the unit sphere are one half -/
theorem primalPosition_edge (eigh : Matrix (Fin 3) (Fin 3) ℝ → Eigh 3 ℝ)
    (hE : ∀ M, M.transpose = M → IsEigh M (eigh M).v (eigh M).w) {ratio : ℝ} (hr : 12 ≤ ratio)
    (pts : List (Fin 2 → Fin D → ℝ)) (hne : pts ≠ []) (hu : ∀ p ∈ pts, ∀ i, OnUnitSphere (p i)) :
    primalPosition eigh ratio (pts.map fun p => (Matrix.of p, none)) =
      .ok (pts.map fun p k => (p 0 k + p 1 k) / 2) := by
  have hm : ∀ b ∈ pts.map (fun p => (Matrix.of p, (none : Option (Vec ℝ 2)))), b.2 = none ∧
      dot (b.1 0) (b.1 0) = 1 ∧ dot (b.1 1) (b.1 1) = 1 ∧ dot (b.1 1) (b.1 0) = dot (b.1 0) (b.1 1) ∧
      |dot (b.1 0) (b.1 1)| ≤ 1 := by
    intro b hb
    obtain ⟨p, hp, rfl⟩ := List.mem_map.mp hb
    refine ⟨rfl, hu p hp 0, hu p hp 1, Finset.sum_congr rfl fun x _ => mul_comm _ _, ?_⟩
    have := Finset.sum_mul_sq_le_sq_mul_sq Finset.univ (p 0) (p 1)
    have h0 : ∑ i, p 0 i ^ 2 = 1 := by
      rw [← hu p hp 0]; exact Finset.sum_congr rfl fun x _ => sq _
    have h1 : ∑ i, p 1 i ^ 2 = 1 := by
      rw [← hu p hp 1]; exact Finset.sum_congr rfl fun x _ => sq _
    rw [h0, h1, one_mul, sq_le_one_iff_abs_le_one] at this
    exact this
  unfold primalPosition
  rw [bary_of_solution eigh hE ratio 5 (by linarith) _ (by simpa using hne) (by omega)
    (z := fun b => ![1 / 2, 1 / 2, -dot (b.1 0) (b.1 1)])]
  · simp only [bind, Except.bind]
    congr 1
    rw [List.map_map, List.zipWith_map_left, List.zipWith_map_right, List.zipWith_self]
    refine List.map_congr_left fun p _ => ?_
    funext j
    simp [Fin.sum_univ_two]
    ring
  · intro b hb i
    obtain ⟨h1, h2, h3, h4, h5⟩ := hm b hb
    fin_cases i <;> simp [Fin.sum_univ_three, productMatrix, h2, h3, h4, abs_mul] <;> linarith
  · intro b hb i
    obtain ⟨h1, h2, h3, h4, h5⟩ := hm b hb
    fin_cases i <;> simp [Fin.sum_univ_three, productMatrix, productRhs, h1, h2, h3, h4] <;> ring
  · intro b hb μ hμ w hw
    obtain ⟨h1, h2, h3, h4, h5⟩ := hm b hb
    have hs : |μ| ≤ 5 / 12 := by
      rcases hμ with h | rfl
      · refine h.le.trans ?_
        rw [div_le_div_iff₀ (by linarith) (by norm_num)]; linarith
      · norm_num
    have e0 := hw 0
    have e1 := hw 1
    have e2 := hw 2
    simp [Fin.sum_univ_three, productMatrix, h2, h3, h4] at e0 e1 e2
    obtain ⟨l1, l2⟩ := abs_le.mp hs
    obtain ⟨c1, c2⟩ := abs_le.mp h5
    generalize dot (b.1 0) (b.1 1) = c at *
    have hk : ((2 + 2 * c - μ) * μ + 2) * w 2 = 0 := by
      linear_combination e0 + e1 - (2 + 2 * c - μ) * e2
    have hp : (2 + 2 * c - μ) * μ + 2 ≠ 0 := by nlinarith
    have hw2 : w 2 = 0 := (mul_eq_zero.mp hk).resolve_left hp
    have hw0 : w 0 = -w 1 := by rw [hw2, mul_zero] at e2; linarith
    simp [Fin.sum_univ_three, hw2, hw0]

end Verif
