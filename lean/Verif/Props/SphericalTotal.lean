/-
C64: totals of the metric on the sphere, and the octahedron.
-/
import Verif.Props.SphericalDual

set_option linter.unusedSectionVars false

namespace Verif.Props

open Verif.Model Verif.Spec Matrix MeasureTheory

/-! ### Totals -/

instance : IsFiniteMeasure (volume : Measure (EuclideanSpace ℝ (Fin 3))).toSphere := inferInstance

theorem surfaceArea_univ : surfaceArea Set.univ = 4 * Real.pi := by
  have := surfaceArea_cone (C := Set.univ) MeasurableSet.univ (fun _ _ _ => by simp)
  have e : onSphere Set.univ = Set.univ := Set.eq_univ_of_forall fun _ => Set.mem_univ _
  rw [e] at this
  rw [this, Set.inter_univ, Measure.real, volume_ball3, ENNReal.toReal_ofReal (by positivity)]
  ring

theorem measurable_onSphere {C : Set (Fin 3 → ℝ)} (hC : MeasurableSet C) : MeasurableSet (onSphere C) := by
  have hf : Measurable fun y : EuclideanSpace ℝ (Fin 3) => WithLp.ofLp y :=
    (PiLp.volume_preserving_ofLp (Fin 3)).measurable
  exact (hf.comp measurable_subtype_coe) hC

/-- the area of a union of parts that meet in sets without area -/
theorem area_union {α : Type} (L : List α) (S : α → Set Sphere2) (hm : ∀ l ∈ L, MeasurableSet (S l))
    (hd : L.Pairwise fun l l' => surfaceArea (S l ∩ S l') = 0) :
    surfaceArea {x | ∃ l ∈ L, x ∈ S l} = (L.map fun l => surfaceArea (S l)).sum := by
  induction L with
  | nil =>
    have : {x : Sphere2 | ∃ l ∈ ([] : List α), x ∈ S l} = ∅ := Set.eq_empty_of_forall_notMem fun x ⟨l, hl, _⟩ => by
      simp at hl
    rw [this]
    simp [surfaceArea]
  | cons a L ih =>
    rw [List.pairwise_cons] at hd
    have ih := ih (fun l hl => hm l (List.mem_cons_of_mem _ hl)) hd.2
    set B : Set Sphere2 := {x | ∃ l ∈ L, x ∈ S l} with hB
    have e : {x : Sphere2 | ∃ l ∈ a :: L, x ∈ S l} = S a ∪ B := by
      ext x
      simp [hB]
    have hBm : MeasurableSet B := by
      have : B = ⋃ l ∈ {l | l ∈ L}, S l := by ext x; simp [hB]
      rw [this]
      exact (List.finite_toSet L).measurableSet_biUnion fun l hl => hm l (List.mem_cons_of_mem _ hl)
    have h0 : surfaceArea (S a ∩ B) = 0 := by
      have hz : (volume : Measure (EuclideanSpace ℝ (Fin 3))).toSphere (S a ∩ B) = 0 := by
        have hs : S a ∩ B ⊆ ⋃ l ∈ {l | l ∈ L}, S a ∩ S l := by
          rintro x ⟨hx, l, hl, hxl⟩
          exact Set.mem_biUnion hl ⟨hx, hxl⟩
        refine measure_mono_null hs ((measure_biUnion_null_iff (List.finite_toSet L).countable).2 fun l hl => ?_)
        have := hd.1 l hl
        exact (measureReal_eq_zero_iff).1 this
      unfold surfaceArea Measure.real
      rw [hz]
      rfl
    rw [e, List.map_cons, List.sum_cons, ← ih]
    have := measureReal_union_add_inter (μ := (volume : Measure (EuclideanSpace ℝ (Fin 3))).toSphere) (s := S a) hBm
    unfold surfaceArea at h0 ⊢
    rw [h0, add_zero] at this
    exact this

section

variable {uniq : List (List Nat) → List (List Nat)}
  {solve : List (List Int) → Option (List Int)}
  {eigh : (n : Nat) → Matrix (Fin n) (Fin n) ℝ → Eigh n ℝ} {ratio : ℝ}
  {simplices : List (List Nat)} {t : Topo} {V : List (Vec ℝ 3)} {W : Option (List ℝ)}
  {y : Finset Nat → Nat → ℝ} {ctr : Finset Nat → Fin 3 → ℝ}

theorem SphereInput.cone_measurable (h : SphereInput uniq solve eigh ratio 2 simplices t V W y ctr) {l : List Nat}
    (hl : l ∈ simplices) : MeasurableSet (onSphere (coneOf V l)) := by
  obtain ⟨a, b, c, rfl⟩ := List.length_eq_three.1 (h.input.rows l hl).1
  have hn := (h.input.rows _ hl).2
  obtain ⟨-, -, -, -, -, -, -, -, -, -, -, -, -, hd, -⟩ := h.domain hl (List.Perm.refl _)
  rw [coneOf_three hn (List.Perm.refl _)]
  exact measurable_onSphere (measurableSet_cone3 hd)

theorem SphereInput.tiling_area (h : SphereInput uniq solve eigh ratio 2 simplices t V W y ctr)
    (ht : TilesSphere V simplices) : (simplices.map fun l => surfaceArea (onSphere (coneOf V l))).sum = 4 * Real.pi := by
  rw [← area_union simplices (fun l => onSphere (coneOf V l)) (fun l hl => h.cone_measurable hl) ht.apart,
    ← surfaceArea_univ]
  congr 1
  exact Set.eq_univ_of_forall fun x => ht.cover x

/-- C64: the measures of the triangles and the dual measures of the vertices have the same total; for triangles
that cover the sphere it is the area of the sphere -/
theorem C64_total (h : SphereInput uniq solve eigh ratio 2 simplices t V W y ctr) (r : ℝ) :
    ∃ P D : List (List (Option ℝ)), ∃ p d : List ℝ, sphericalMetric solve eigh ratio t V W r = .ok (P, D) ∧
      P[2]? = some (p.map some) ∧ D[2]? = some (d.map some) ∧ p.sum = d.sum ∧
      (TilesSphere V simplices → p.sum = 4 * Real.pi * r ^ 2) := by
  have hi := h.input
  obtain ⟨-, wf⟩ := fromSimplices_wf hi.uniq_ok hi.rows hi.built
  have htop := hi.rows
  refine ⟨_, _, simplices.map fun l => surfaceArea (onSphere (coneOf V l)) * r ^ 2,
    (t.elements[0]?.getD []).map fun e => (simplices.map fun l =>
          if e ⊆ l then ((l.diff e).map fun u => surfaceArea (sphericalTriangle (position V (e[0]?.getD 0))
            (ctr {e[0]?.getD 0, u}) (ctr l.toFinset))).sum else 0).sum * r ^ 2, C64_sphere h r, by simp, by simp, ?_, ?_⟩
  · rw [List.sum_map_mul_right, List.sum_map_mul_right, ← h.triangle_sums, ← h.corner_sums]
    congr 1
    have k1 := keys_range wf htop (k := 1 + 1) (Nat.le_refl _)
    rw [wf.top_eq, Option.getD_some] at k1
    rw [← groupSum_eq (flagList 1 simplices) (domainKey t.elements 1 (1 + 1)) (fun q => cellMeasure ctr 0 (1 + 1) q.2) k1,
      ← groupSum_eq (flagList 1 simplices) (domainKey t.elements 1 0) (fun q => cellMeasure ctr 0 (1 + 1) q.2)
        (keys_range wf htop (by omega)),
      groupSum_total _ _ _ k1, groupSum_total _ _ _ (keys_range wf htop (by omega))]
  · intro ht
    rw [List.sum_map_mul_right, h.tiling_area ht]

/-- C64: without weights, and with vertices on the sphere, the dual measure of a vertex is the area of the points
of its triangles that are nearest to it among the corners of their triangle -/
theorem C64_unweighted (h : SphereInput uniq solve eigh ratio 2 simplices t V none y ctr) (R : ℝ)
    (hR : ∀ l ∈ simplices, ∀ v ∈ l, innerProd (position V v) (position V v) = R) (r : ℝ) :
    ∃ P D, sphericalMetric solve eigh ratio t V none r = .ok (P, D) ∧
      D[2]? = some ((t.elements[0]?.getD []).map fun e => some ((simplices.map fun l =>
          if e ⊆ l then surfaceArea (onSphere (nearestPart V l (e[0]?.getD 0))) else 0).sum * r ^ 2)) ∧
      ∀ (x a b c d : Nat) (l l' : List Nat), (t.elements[1]?.getD [])[x]? = some [a, b] →
        simplices.filter (fun s => [a, b] ⊆ s) = [l, l'] → [a, b, c].Perm l → [a, b, d].Perm l' →
        (Matrix.of ![position V a, position V b, position V c]).det *
          (Matrix.of ![position V a, position V b, position V d]).det < 0 →
        (D[1]?.getD [])[x]? = some (some (arc (ctr l.toFinset) (ctr l'.toFinset) * r)) := by
  have hi := h.input
  obtain ⟨-, wf⟩ := fromSimplices_wf hi.uniq_ok hi.rows hi.built
  have htop := hi.rows
  refine ⟨_, _, C64_sphere h r, ?_, ?_⟩
  · simp only [List.getElem?_cons_succ, List.getElem?_cons_zero]
    congr 1
    refine List.map_congr_left fun e he => ?_
    obtain ⟨he1, he2, -⟩ := wf.element_face htop (k := 0) (by omega) he
    obtain ⟨a, rfl⟩ := List.length_eq_one_iff.1 he1
    congr 3
    refine List.map_congr_left fun l hl => ?_
    by_cases hs : [a] ⊆ l
    · rw [if_pos hs, if_pos hs]
      exact C64_nearest h R hR hl (hs (by simp))
    · rw [if_neg hs, if_neg hs]
  · intro x a b c d l l' hx hf hp hp' hside
    have hm : ∀ s ∈ [l, l'], s ∈ simplices := fun s hs => by
      rw [← hf] at hs
      exact (List.mem_filter.1 hs).1
    have := C64_dual_edge h R hR (hm l (by simp)) (hm l' (by simp)) hp hp' hside
    simp only [List.getElem?_cons_succ, List.getElem?_cons_zero, Option.getD_some, List.getElem?_map, hx, Option.map_some]
    congr 3
    rw [List.sum_map_ite, List.map_const', List.sum_replicate, nsmul_zero, add_zero, hf]
    simpa using this

end

end Verif.Props
