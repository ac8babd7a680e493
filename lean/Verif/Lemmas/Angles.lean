/-
Angles of triangles.
-/
import Verif.Model.Angles
import Verif.Spec.Angles
import Verif.Lemmas.MetricValues
import Mathlib.Geometry.Euclidean.Triangle

set_option linter.unusedSectionVars false

namespace Verif

open Verif.Model Verif.Spec Matrix

variable {D : Nat}

theorem dot_eq_innerProd (u v : Vec ℝ D) : dot u v = innerProd u v := rfl

theorem innerProd_self_nonneg (u : Fin D → ℝ) : 0 ≤ innerProd u u :=
  Finset.sum_nonneg fun _ _ => mul_self_nonneg _

theorem innerProd_self_pos {u : Fin D → ℝ} (h : u ≠ 0) : 0 < innerProd u u := by
  refine lt_of_le_of_ne (innerProd_self_nonneg u) fun h0 => h ?_
  funext i
  have := (Finset.sum_eq_zero_iff_of_nonneg (fun i _ => mul_self_nonneg (u i))).1 h0.symm i (Finset.mem_univ i)
  exact mul_self_eq_zero.1 this

theorem innerProd_comm (u v : Fin D → ℝ) : innerProd u v = innerProd v u :=
  Finset.sum_congr rfl fun _ _ => mul_comm _ _

theorem inner_eq_innerProd (u v : Fin D → ℝ) :
    inner ℝ (WithLp.toLp 2 u : EuclideanSpace ℝ (Fin D)) (WithLp.toLp 2 v) = innerProd u v := by
  simp [PiLp.inner_apply, innerProd, mul_comm]

theorem norm_eq_innerProd (u : Fin D → ℝ) :
    ‖(WithLp.toLp 2 u : EuclideanSpace ℝ (Fin D))‖ = Real.sqrt (innerProd u u) := by
  rw [EuclideanSpace.norm_eq]
  congr 1
  exact Finset.sum_congr rfl fun i _ => by simp [pow_two]

theorem angle_eq (u v : Fin D → ℝ) :
    InnerProductGeometry.angle (WithLp.toLp 2 u : EuclideanSpace ℝ (Fin D)) (WithLp.toLp 2 v) =
      Real.arccos (innerProd u v / (Real.sqrt (innerProd u u) * Real.sqrt (innerProd v v))) := by
  unfold InnerProductGeometry.angle
  rw [inner_eq_innerProd, norm_eq_innerProd, norm_eq_innerProd]

theorem normalizedVec_scale (u : Vec ℝ D) : ∀ i, normalizedVec u i = u i / Real.sqrt (innerProd u u) := by
  intro i
  unfold normalizedVec
  show u i / (if Real.sqrt (dot u u) = 0 then 1 else Real.sqrt (dot u u)) = u i / Real.sqrt (dot u u)
  by_cases h : Real.sqrt (dot u u) = 0
  · rw [if_pos h, h]
    have : u = 0 := by
      by_contra h0
      exact (Real.sqrt_pos.2 (innerProd_self_pos h0)).ne' h
    simp [this]
  · rw [if_neg h]

theorem triangleAngles_eq (p : Fin 3 → Vec ℝ D) (i : Fin 3) :
    triangleAngles p i =
      Real.arccos (innerProd (p (i + 1) - p i) (p (i + 2) - p i) /
        (Real.sqrt (innerProd (p (i + 1) - p i) (p (i + 1) - p i)) *
          Real.sqrt (innerProd (p (i + 2) - p i) (p (i + 2) - p i)))) := by
  have h1 : i + 1 + 1 = i + 2 := by fin_cases i <;> rfl
  have h2 : i + 1 + 2 = i := by fin_cases i <;> rfl
  have h3 : i + 2 + 1 = i := by fin_cases i <;> rfl
  have h4 : i + 2 + 2 = i + 1 := by fin_cases i <;> rfl
  unfold triangleAngles
  simp only [h1, h2, h3, h4]
  congr 1
  have hs : innerProd (p i - p (i + 1)) (p i - p (i + 1)) = innerProd (p (i + 1) - p i) (p (i + 1) - p i) :=
    Finset.sum_congr rfl fun c _ => by simp only [Pi.sub_apply]; ring
  unfold dot
  simp only [normalizedVec_scale, hs]
  rw [← Finset.sum_neg_distrib]
  unfold innerProd
  rw [Finset.sum_div]
  refine Finset.sum_congr rfl fun c _ => ?_
  simp only [Pi.sub_apply]
  ring

/-- the Gram determinant of two edges of a triangle does not depend on the corner -/
theorem gram_turn (a b c : Fin D → ℝ) :
    innerProd (c - b) (c - b) * innerProd (a - b) (a - b) - innerProd (c - b) (a - b) ^ 2 =
      innerProd (b - a) (b - a) * innerProd (c - a) (c - a) - innerProd (b - a) (c - a) ^ 2 := by
  have e1 : innerProd (c - b) (c - b) = innerProd (c - a) (c - a) - 2 * innerProd (b - a) (c - a) + innerProd (b - a) (b - a) := by
    simp only [innerProd, Finset.mul_sum, ← Finset.sum_sub_distrib, ← Finset.sum_add_distrib, Pi.sub_apply]
    exact Finset.sum_congr rfl fun c _ => by ring
  have e2 : innerProd (a - b) (a - b) = innerProd (b - a) (b - a) := by
    simp only [innerProd, Pi.sub_apply]
    exact Finset.sum_congr rfl fun c _ => by ring
  have e3 : innerProd (c - b) (a - b) = innerProd (b - a) (b - a) - innerProd (b - a) (c - a) := by
    simp only [innerProd, ← Finset.sum_sub_distrib, Pi.sub_apply]
    exact Finset.sum_congr rfl fun c _ => by ring
  rw [e1, e2, e3]
  ring

theorem area_turn (a b c : Fin D → ℝ) : triangleArea b c a = triangleArea a b c := by
  unfold triangleArea
  rw [gram_turn a b c]

theorem area_swap (a b c : Fin D → ℝ) : triangleArea a c b = triangleArea a b c := by
  unfold triangleArea
  rw [innerProd_comm (c - a) (b - a), mul_comm (innerProd (c - a) (c - a))]

theorem cotangent_swap (a b c : Fin D → ℝ) : cotangent a c b = cotangent a b c := by
  unfold cotangent
  rw [area_swap, innerProd_comm]

/-- the cotangent of the angle at a corner -/
theorem cot_arccos (a b c : Fin D → ℝ) (h : 0 < triangleArea a b c) :
    1 / Real.tan (Real.arccos (innerProd (b - a) (c - a) /
      (Real.sqrt (innerProd (b - a) (b - a)) * Real.sqrt (innerProd (c - a) (c - a))))) = cotangent a b c := by
  set u := b - a with hu
  set v := c - a with hv
  have hΔ : 0 < innerProd u u * innerProd v v - innerProd u v ^ 2 := by
    unfold triangleArea at h
    exact Real.sqrt_pos.1 (by linarith)
  have hp : 0 < innerProd u u * innerProd v v := by nlinarith [sq_nonneg (innerProd u v)]
  have hu0 : 0 < innerProd u u := by
    rcases (innerProd_self_nonneg u).lt_or_eq with h1 | h1
    · exact h1
    · rw [← h1, zero_mul] at hp; exact absurd hp (lt_irrefl _)
  have hv0 : 0 < innerProd v v := by
    rcases (innerProd_self_nonneg v).lt_or_eq with h1 | h1
    · exact h1
    · rw [← h1, mul_zero] at hp; exact absurd hp (lt_irrefl _)
  rw [Real.tan_arccos]
  have hn : Real.sqrt (innerProd u u) * Real.sqrt (innerProd v v) = Real.sqrt (innerProd u u * innerProd v v) :=
    (Real.sqrt_mul hu0.le _).symm
  have h1 : 1 - (innerProd u v / (Real.sqrt (innerProd u u) * Real.sqrt (innerProd v v))) ^ 2 =
      (innerProd u u * innerProd v v - innerProd u v ^ 2) / (innerProd u u * innerProd v v) := by
    rw [hn, div_pow, Real.sq_sqrt hp.le]
    field_simp
  rw [h1, Real.sqrt_div hΔ.le, hn]
  have hs := Real.sqrt_pos.2 hp
  have hs' := Real.sqrt_pos.2 hΔ
  unfold cotangent triangleArea
  rw [← hu, ← hv, mul_div_cancel₀ _ (by norm_num : (2 : ℝ) ≠ 0), one_div_div]
  field_simp

/-! ### Grouping by edge -/

/-- triangle, its row of edges, and a slot of the row -/
def slots (T B : List (List Nat)) : List ((List Nat × List Nat) × Nat) :=
  (T.zip B).flatMap fun q => (List.range 3).map fun c => (q, c)

theorem slots_key {T B : List (List Nat)} (hl : B.length = T.length) (hb : ∀ b ∈ B, b.length = 3) :
    B.flatten = (slots T B).map fun s => s.1.2[s.2]?.getD 0 := by
  unfold slots
  rw [List.map_flatMap]
  have h1 : B = (T.zip B).map Prod.snd := (List.map_snd_zip (by omega)).symm
  conv_lhs => rw [h1]
  rw [← List.flatMap_def]
  apply List.flatMap_congr
  intro q hq
  rw [List.map_map]
  have h3 := hb q.2 (List.of_mem_zip hq).2
  apply List.ext_getElem
  · simp [h3]
  · intro i hi1 hi2
    simp [List.getElem?_eq_getElem hi1]

theorem slots_value {T B : List (List Nat)} (hl : B.length = T.length) (f : List Nat → Fin 3 → ℝ) :
    (T.map f).flatMap (fun a => List.ofFn a) =
      (slots T B).map fun s => if h : s.2 < 3 then f s.1.1 ⟨s.2, h⟩ else 0 := by
  unfold slots
  rw [List.map_flatMap, List.flatMap_map]
  have h1 : T = (T.zip B).map Prod.fst := (List.map_fst_zip (by omega)).symm
  conv_lhs => rw [h1]
  rw [List.flatMap_map]
  apply List.flatMap_congr
  intro q hq
  rw [List.map_map]
  apply List.ext_getElem
  · simp
  · intro i hi1 hi2
    rw [List.getElem_ofFn]
    simp at hi1
    simp [hi1]

theorem slots_sum {T B : List (List Nat)} (hl : B.length = T.length)
    (p : (List Nat × List Nat) × Nat → Bool) (g : (List Nat × List Nat) × Nat → ℝ) (F : List Nat → ℝ)
    (h : ∀ q ∈ T.zip B, (((List.range 3).filter fun c => p (q, c)).map fun c => g (q, c)).sum = F q.1) :
    (((slots T B).filter p).map g).sum = (T.map F).sum := by
  have h1 : T = (T.zip B).map Prod.fst := (List.map_fst_zip (by omega)).symm
  conv_rhs => rw [h1, List.map_map]
  unfold slots
  clear h1
  generalize T.zip B = L at h ⊢
  induction L with
  | nil => rfl
  | cons q L ih =>
    rw [List.flatMap_cons, List.filter_append, List.map_append, List.sum_append, List.map_cons, List.sum_cons,
      ih fun q hq => h q (List.mem_cons_of_mem _ hq), List.filter_map, List.map_map]
    congr 1
    exact h q (by simp)

/-- the face opposite to a corner -/
theorem opposite_iff {l e : List Nat} (he : e.Nodup) {c : Nat} (hc : c < l.length) :
    e.Perm (l.eraseIdx c) ↔ e ⊆ l ∧ l.diff e = [l[c]] := by
  have h1 := eraseIdx_append_perm hc
  constructor
  · intro h
    have hs : e ⊆ l := fun v hv => (List.eraseIdx_subset) (h.subset hv)
    refine ⟨hs, ?_⟩
    have hd : (e ++ l.diff e).Perm l := List.subperm_append_diff_self_of_count_le fun a ha => by
      rw [List.count_eq_one_of_mem he ha]
      exact List.one_le_count_iff.2 (hs ha)
    have h2 : (e ++ l.diff e).Perm (e ++ [l[c]]) := hd.trans (h1.symm.trans (h.symm.append_right _))
    exact List.perm_singleton.1 ((List.perm_append_left_iff e).1 h2)
  · rintro ⟨hs, hd⟩
    have hd' : (e ++ l.diff e).Perm l := List.subperm_append_diff_self_of_count_le fun a ha => by
      rw [List.count_eq_one_of_mem he ha]
      exact List.one_le_count_iff.2 (hs ha)
    rw [hd] at hd'
    exact (List.perm_append_right_iff [l[c]]).1 (hd'.trans h1.symm)

/-- the remaining corner of a triangle -/
theorem diff_single {l e : List Nat} (hl : l.length = 3) (he1 : e.length = 2) (he : e.Nodup) (hs : e ⊆ l) :
    ∃ z, l.diff e = [z] ∧ (e ++ [z]).Perm l := by
  have hd : (e ++ l.diff e).Perm l := List.subperm_append_diff_self_of_count_le fun a ha => by
    rw [List.count_eq_one_of_mem he ha]
    exact List.one_le_count_iff.2 (hs ha)
  have h2 := hd.length_eq
  rw [List.length_append] at h2
  obtain ⟨z, hz⟩ := List.length_eq_one_iff.1 (show (l.diff e).length = 1 by omega)
  exact ⟨z, hz, hz ▸ hd⟩

/-- the sum over the slots of a triangle that hold an edge -/
theorem slot_sum {l e : List Nat} (hl : l.length = 3) (hn : l.Nodup) (he1 : e.length = 2) (he : e.Nodup)
    (G : Nat → ℝ) :
    (((List.range 3).filter fun c => decide (e.Perm (l.eraseIdx c))).map fun c => G (l[c]?.getD 0)).sum =
      if e ⊆ l then ((l.diff e).map G).sum else 0 := by
  by_cases hs : e ⊆ l
  · rw [if_pos hs]
    obtain ⟨z, hz, hp⟩ := diff_single hl he1 he hs
    obtain ⟨c0, hc0, hzc⟩ := List.getElem_of_mem (hp.mem_iff.1 (show z ∈ e ++ [z] by simp))
    have hf : (List.range 3).filter (fun c => decide (e.Perm (l.eraseIdx c))) = [c0] := by
      rw [show [c0] = (List.range 3).filter fun c => c == c0 from ?_]
      · apply List.filter_congr
        intro c hc
        have hc : c < l.length := by rw [hl]; exact List.mem_range.1 hc
        rw [show decide (e.Perm (l.eraseIdx c)) = decide (c = c0) from decide_eq_decide.2 ?_]
        · rfl
        rw [opposite_iff he hc, hz]
        constructor
        · rintro ⟨-, h⟩
          have h : z = l[c] := by simpa using h
          rw [← hzc] at h
          exact ((List.Nodup.getElem_inj_iff hn).1 h).symm
        · rintro rfl
          exact ⟨hs, by rw [hzc]⟩
      · have : c0 < 3 := by omega
        interval_cases c0 <;> rfl
    rw [hf, hz]
    simp [List.getElem?_eq_getElem hc0, hzc]
  · rw [if_neg hs]
    have hf : (List.range 3).filter (fun c => decide (e.Perm (l.eraseIdx c))) = [] := by
      rw [List.filter_eq_nil_iff]
      intro c hc
      have hc : c < l.length := by rw [hl]; exact List.mem_range.1 hc
      rw [decide_eq_true_eq, opposite_iff he hc]
      exact fun h => hs h.1
    rw [hf]
    rfl

end Verif
