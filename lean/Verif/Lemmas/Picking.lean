/-
The spheres of simplices, and the linear system behind `pick_primal`.
-/
import Verif.Spec.Picking
import Verif.Lemmas.Excess
import Verif.Lemmas.Height

set_option linter.unusedSectionVars false

namespace Verif

open Verif.Model Verif.Spec Matrix

section

variable {D : Nat} {V : List (Fin D → ℝ)} {w : Nat → ℝ}

/-- the distance of the centers of a simplex and of a face -/
theorem center_dist {S F : Finset Nat} (hF : F ⊆ S) {y z : Nat → ℝ} {c c' : Fin D → ℝ}
    (hc : PowerCoords V w S y c) (hc' : PowerCoords V w F z c') {u : Nat} (hu : u ∈ F) :
    dist2 c c' = power c (position V u) (w u) - power c' (position V u) (w u) := by
  have ho := equal_orthogonal (fun a ha b hb => hc.equal a (hF ha) b (hF hb)) hc'.equal
  have h0 : innerProd (c - c') (c' - position V u) = 0 := by
    refine ip_face ho (z := fun v => z v - if v = u then 1 else 0) ?_ fun j => ?_
    · rw [Finset.sum_sub_distrib, hc'.one, Finset.sum_ite_eq' F u, if_pos hu, sub_self]
    · rw [Pi.sub_apply, hc'.point j]
      simp only [sub_mul]
      rw [Finset.sum_sub_distrib]
      congr 1
      simp only [ite_mul, one_mul, zero_mul]
      rw [Finset.sum_ite_eq' F u, if_pos hu]
  have : dist2 c c' - (power c (position V u) (w u) - power c' (position V u) (w u)) =
      -2 * innerProd (c - c') (c' - position V u) := by
    simp only [dist2, power, innerProd, Pi.sub_apply]
    rw [Finset.mul_sum]
    have e : ∀ a b d : ℝ, a - (b - w u - (d - w u)) = a - (b - d) := by intros; ring
    rw [e, ← Finset.sum_sub_distrib, ← Finset.sum_sub_distrib]
    refine Finset.sum_congr rfl fun j _ => ?_
    ring
  rw [h0] at this
  linarith

/-- squared distances from a combination of points -/
theorem dist2_combine {S : Finset Nat} {b : Nat → ℝ} (h1 : ∑ v ∈ S, b v = 1) {p : Fin D → ℝ}
    (hp : ∀ j, p j = ∑ v ∈ S, b v * position V v j) (c : Fin D → ℝ) :
    dist2 p c = ∑ v ∈ S, b v * (dist2 (position V v) c - dist2 (position V v) p) := by
  have e : ∀ v, b v * (dist2 (position V v) c - dist2 (position V v) p) =
      ∑ j, (2 * (p j - c j) * (b v * position V v j) + b v * (c j ^ 2 - p j ^ 2)) := by
    intro v
    simp only [dist2]
    rw [← Finset.sum_sub_distrib, Finset.mul_sum]
    refine Finset.sum_congr rfl fun j _ => ?_
    ring
  simp only [e]
  rw [Finset.sum_comm]
  unfold dist2
  refine Finset.sum_congr rfl fun j _ => ?_
  rw [Finset.sum_add_distrib, ← Finset.mul_sum, ← Finset.sum_mul, ← hp j, h1]
  ring

variable {n : Nat} {simplices : List (List Nat)} {y : Finset Nat → Nat → ℝ} {ctr : Finset Nat → Fin D → ℝ}

theorem headD_mem {l : List Nat} (h : l ≠ []) : l.headD 0 ∈ l := by
  cases l with
  | nil => exact absurd rfl h
  | cons a t => simp

/-- the power of the center is the same from all corners -/
theorem sphereRadius_eq (hc : PowerCenters V w simplices y ctr) {l : List Nat} (hl : l ∈ simplices)
    {v : Nat} (hv : v ∈ l) :
    sphereRadius V w ctr l = power (ctr l.toFinset) (position V v) (w v) := by
  have hne : l ≠ [] := by
    rintro rfl
    simp at hv
  exact (hc l.toFinset ⟨⟨v, by simpa using hv⟩, l, hl, fun _ h => h⟩).equal _ (by simpa using headD_mem hne) _
    (by simpa using hv)

/-- how the powers with respect to two spheres differ, for a point with given coordinates in one of the
simplices -/
theorem spherePower_sub (hc : PowerCenters V w simplices y ctr) {l l' : List Nat} (hl : l ∈ simplices)
    {p : Fin D → ℝ} {b : Nat → ℝ} (hb : Coordinates V l p b) :
    spherePower V w ctr l' p - spherePower V w ctr l p = ∑ v ∈ l.toFinset, b v *
      (power (ctr l'.toFinset) (position V v) (w v) - sphereRadius V w ctr l') := by
  have h1 : ∀ (q : Fin D → ℝ) (r : ℝ), power p q r = dist2 p q - r := fun _ _ => rfl
  have h2 : ∀ (q : Fin D → ℝ) (v : Nat), power q (position V v) (w v) = dist2 (position V v) q - w v := by
    intro q v
    unfold power dist2
    congr 1
    exact Finset.sum_congr rfl fun j _ => by ring
  have h3 : ∑ v ∈ l.toFinset, b v * (power (ctr l.toFinset) (position V v) (w v) - sphereRadius V w ctr l) = 0 := by
    refine Finset.sum_eq_zero fun v hv => ?_
    rw [sphereRadius_eq hc hl (by simpa using hv), sub_self, mul_zero]
  rw [← sub_zero (∑ v ∈ l.toFinset, _), ← h3, ← Finset.sum_sub_distrib]
  unfold spherePower
  rw [h1, h1, dist2_combine hb.1 hb.2 (ctr l'.toFinset), dist2_combine hb.1 hb.2 (ctr l.toFinset)]
  have h4 : ∀ r : ℝ, r = ∑ v ∈ l.toFinset, b v * r := fun r => by rw [← Finset.sum_mul, hb.1, one_mul]
  rw [h4 (sphereRadius V w ctr l'), h4 (sphereRadius V w ctr l), ← Finset.sum_sub_distrib,
    ← Finset.sum_sub_distrib, ← Finset.sum_sub_distrib]
  refine Finset.sum_congr rfl fun v _ => ?_
  rw [← h4, ← h4, h2, h2]
  ring

/-- a point whose coordinates vanish outside of a second simplex lies in that one -/
theorem InSimplex.move {l l' : List Nat} {p : Fin D → ℝ} {b : Nat → ℝ} (hb : Coordinates V l p b)
    (h0 : ∀ v ∈ l, 0 ≤ b v) (hz : ∀ v ∈ l, v ∉ l' → b v = 0) : InSimplex V l' p := by
  refine ⟨fun v => if v ∈ l then b v else 0, ⟨?_, fun j => ?_⟩, fun v _ => ?_⟩
  · rw [← hb.1]
    have e1 : ∑ v ∈ l'.toFinset, (if v ∈ l then b v else 0) = ∑ v ∈ l'.toFinset ∩ l.toFinset, b v := by
      rw [← Finset.filter_mem_eq_inter, Finset.sum_filter]
      simp
    rw [e1]
    refine Finset.sum_subset Finset.inter_subset_right fun v hv hv' => ?_
    have hv1 : v ∈ l := by simpa using hv
    refine hz v hv1 fun h => hv' ?_
    simp [h, hv1]
  · rw [hb.2 j]
    have e1 : ∑ v ∈ l'.toFinset, (if v ∈ l then b v else 0) * position V v j =
        ∑ v ∈ l'.toFinset ∩ l.toFinset, b v * position V v j := by
      rw [← Finset.filter_mem_eq_inter, Finset.sum_filter]
      refine Finset.sum_congr rfl fun v _ => ?_
      by_cases h : v ∈ l <;> simp [h]
    rw [e1]
    symm
    refine Finset.sum_subset Finset.inter_subset_right fun v hv hv' => ?_
    have hv1 : v ∈ l := by simpa using hv
    rw [hz v hv1 fun h => hv' (by simp [h, hv1]), zero_mul]
  · dsimp only
    split
    · exact h0 v ‹_›
    · exact le_refl 0

end

end Verif
