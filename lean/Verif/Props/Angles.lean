/-
C60: angles, areas and the cotangent weights of triangle meshes.
-/
import Verif.Lemmas.Angles
import Verif.Props.Metric

set_option linter.unusedSectionVars false

namespace Verif.Props

open Verif.Model Verif.Spec Matrix

variable {D : Nat}

/-- C60: the i-th entry of `triangle_angles` is the angle at the i-th corner -/
theorem C60_angle (p : Fin 3 → Vec ℝ D) (i : Fin 3) :
    IsAngle (p (i + 1) - p i) (p (i + 2) - p i) (triangleAngles p i) := by
  rw [triangleAngles_eq, ← angle_eq]
  refine ⟨InnerProductGeometry.angle_nonneg _ _, InnerProductGeometry.angle_le_pi _ _, ?_⟩
  have := InnerProductGeometry.cos_angle_mul_norm_mul_norm
    (WithLp.toLp 2 (p (i + 1) - p i) : EuclideanSpace ℝ (Fin D)) (WithLp.toLp 2 (p (i + 2) - p i))
  rw [norm_eq_innerProd, norm_eq_innerProd, inner_eq_innerProd] at this
  exact this

/-- C60: the angles of a triangle add up to `pi` unless all corners coincide; then they add up to
`3 pi / 2` -/
theorem C60_angle_sum (p : Fin 3 → Vec ℝ D) :
    (¬ (p 0 = p 1 ∧ p 1 = p 2) → ∑ i, triangleAngles p i = Real.pi) ∧
      (p 0 = p 1 ∧ p 1 = p 2 → ∑ i, triangleAngles p i = 3 * Real.pi / 2) := by
  constructor
  · intro h
    set q : Fin 3 → EuclideanSpace ℝ (Fin D) := fun i => WithLp.toLp 2 (p i) with hq
    have hang : ∀ i, triangleAngles p i = EuclideanGeometry.angle (q (i + 1)) (q i) (q (i + 2)) := by
      intro i
      rw [triangleAngles_eq, ← angle_eq]
      rfl
    have hne : q 0 ≠ q 1 ∨ q 1 ≠ q 2 := by
      by_contra hc
      push Not at hc
      exact h ⟨WithLp.toLp_injective 2 hc.1, WithLp.toLp_injective 2 hc.2⟩
    rw [Fin.sum_univ_three, hang, hang, hang]
    show EuclideanGeometry.angle (q 1) (q 0) (q 2) + EuclideanGeometry.angle (q 2) (q 1) (q 0) +
      EuclideanGeometry.angle (q 0) (q 2) (q 1) = Real.pi
    rcases hne with hne | hne
    · have := EuclideanGeometry.angle_add_angle_add_angle_eq_pi (q 2) hne
      linarith
    · have := EuclideanGeometry.angle_add_angle_add_angle_eq_pi (q 0) hne
      linarith [EuclideanGeometry.angle_comm (q 0) (q 2) (q 1), EuclideanGeometry.angle_comm (q 2) (q 1) (q 0),
        EuclideanGeometry.angle_comm (q 1) (q 0) (q 2)]
  · rintro ⟨h1, h2⟩
    have hall : ∀ i j, p i = p j := by
      intro i j
      fin_cases i <;> fin_cases j <;> simp [h1, h2]
    have : ∀ i, triangleAngles p i = Real.pi / 2 := by
      intro i
      rw [triangleAngles_eq, hall (i + 1) i, hall (i + 2) i]
      simp [innerProd]
    rw [Fin.sum_univ_three, this, this, this]
    ring

/-! ### Areas -/

theorem vol_three (p : Fin 3 → Fin D → ℝ) : vol (M := 2) p = triangleArea (p 0) (p 1) (p 2) := by
  unfold vol triangleArea
  have hd : (edgeRows (Matrix.of p) * (edgeRows (Matrix.of p))ᵀ).det =
      innerProd (p 1 - p 0) (p 1 - p 0) * innerProd (p 2 - p 0) (p 2 - p 0) -
        innerProd (p 1 - p 0) (p 2 - p 0) ^ 2 := by
    rw [det_fin_two]
    simp only [mul_apply, transpose_apply, edgeRows, of_apply]
    show (innerProd (p 1 - p 0) (p 1 - p 0)) * (innerProd (p 2 - p 0) (p 2 - p 0)) -
      (innerProd (p 1 - p 0) (p 2 - p 0)) * (innerProd (p 2 - p 0) (p 1 - p 0)) = _
    rw [innerProd_comm (p 2 - p 0) (p 1 - p 0)]
    ring
  have hnn : 0 ≤ innerProd (p 1 - p 0) (p 1 - p 0) * innerProd (p 2 - p 0) (p 2 - p 0) -
        innerProd (p 1 - p 0) (p 2 - p 0) ^ 2 := by
    have := real_inner_mul_inner_self_le (WithLp.toLp 2 (p 1 - p 0) : EuclideanSpace ℝ (Fin D))
      (WithLp.toLp 2 (p 2 - p 0))
    rw [inner_eq_innerProd, inner_eq_innerProd, inner_eq_innerProd] at this
    linarith [pow_two (innerProd (p 1 - p 0) (p 2 - p 0))]
  rw [hd, abs_of_nonneg hnn]
  norm_num [Nat.factorial]

theorem vol_two (p : Fin 2 → Fin D → ℝ) : vol (M := 1) p = Real.sqrt (innerProd (p 1 - p 0) (p 1 - p 0)) := by
  unfold vol
  have hd : (edgeRows (Matrix.of p) * (edgeRows (Matrix.of p))ᵀ).det = innerProd (p 1 - p 0) (p 1 - p 0) := by
    rw [det_fin_one]
    simp only [mul_apply, transpose_apply, edgeRows, of_apply]
    rfl
  rw [hd, abs_of_nonneg (innerProd_self_nonneg _)]
  norm_num [Nat.factorial]

theorem area_pos {V : List (Vec ℝ D)} {T : List (List Nat)} (hnd : NonDegenerate V 2 T) (hD : 2 ≤ D) {l : List Nat}
    (hl : l ∈ T) : 0 < vol (cornersOf V 3 l) := by
  have h1 := (C55_unsigned_zero _ _ (volume_eq_vol hD (cornersOf V 3 l))).2 (hnd l hl)
  refine lt_of_le_of_ne ?_ (Ne.symm h1)
  unfold vol
  positivity

/-- area of a triangle given by a row of corners -/
noncomputable def rowArea (V : List (Vec ℝ D)) (l : List Nat) : ℝ :=
  triangleArea (position V (l[0]?.getD 0)) (position V (l[1]?.getD 0)) (position V (l[2]?.getD 0))

theorem vol_row (V : List (Vec ℝ D)) (l : List Nat) : vol (cornersOf V 3 l) = rowArea V l := vol_three _

variable {uniq : List (List Nat) → List (List Nat)} {T : List (List Nat)} {t : Topo} {V : List (Vec ℝ D)}

theorem mapM_rows {α : Type} (g : (Fin 3 → Vec ℝ D) → Except PyErr α) (f : List Nat → α)
    (hT : Simplices 3 T) (hv : ∀ l ∈ T, ∀ v ∈ l, v < V.length)
    (hg : ∀ l, g (cornersOf V 3 l) = .ok (f l)) :
    (T.mapM fun row => do let p ← rowValues V 3 row; g p) = .ok (T.map f) := by
  have := mapM_map_ok (fun row => do let p ← rowValues V 3 row; g p) id f T (by
    intro l hl
    simp only [id]
    rw [rowValues_ok (hT l hl).1 (hv l hl)]
    exact hg l)
  simpa using this

/-- C60: `compute_vertex_areas` returns, for every vertex, a third of the areas of the triangles around
it; they add up to the area of the mesh -/
theorem C60_vertex_areas (hu : UniqSpec uniq) (hT : Simplices 3 T) (hb : fromSimplices uniq 3 T = .ok t)
    (hv : ∀ l ∈ T, ∀ v ∈ l, v < V.length) (hD : 2 ≤ D) :
    ∃ A R, computeTriangleAreas V T = .ok A ∧ computeVertexAreas V T = .ok R ∧
      A = T.map (rowArea V) ∧ R.length = t.nElements 0 ∧
      (∀ v < t.nElements 0, R[v]? = some ((T.map fun l => if v ∈ l then rowArea V l else 0).sum / 3)) ∧
      R.sum = A.sum := by
  have hA : computeTriangleAreas V T = .ok (T.map (rowArea V)) := by
    unfold computeTriangleAreas
    refine mapM_rows _ _ hT hv fun l => ?_
    rw [volume_eq_vol hD, vol_row]
  obtain ⟨-, wf⟩ := fromSimplices_wf hu hT hb
  set L : List (List Nat × Nat) := T.flatMap fun l => l.map fun v => (l, v) with hL
  have hkey : T.flatten = L.map Prod.snd := by
    rw [hL, List.map_flatMap, ← List.flatMap_id]
    apply List.flatMap_congr
    intro l _
    simp [List.map_map, Function.comp_def]
  have hval : ((T.map (rowArea V)).flatMap fun a => List.replicate 3 a) = L.map fun q => rowArea V q.1 := by
    rw [hL, List.map_flatMap, List.flatMap_map]
    apply List.flatMap_congr
    intro l hl
    rw [List.map_map, ← (hT l hl).1]
    simp [Function.comp_def, List.map_const']
  have hrange : ∀ v, v ∈ L.map Prod.snd ↔ v < t.nElements 0 := by
    intro v
    rw [← hkey, List.mem_flatten]
    constructor
    · rintro ⟨l, hl, hv⟩
      exact wf.vertex_lt hT hl hv
    · intro hv
      have hx : (t.elements[0]?.getD [])[v]? = some ((t.elements[0]?.getD [])[v]'hv) := List.getElem?_eq_getElem hv
      have h1 := wf.vertex (by omega) hx
      obtain ⟨-, -, l, hl, hs⟩ := wf.element_face hT (k := 0) (by omega) (List.mem_of_getElem? hx)
      exact ⟨l, hl, hs (by rw [h1]; simp)⟩
  have hR : computeVertexAreas V T = .ok ((groupSum (L.map Prod.snd) (L.map fun q => rowArea V q.1)).map fun x => x / 3) := by
    unfold computeVertexAreas
    rw [hA]
    simp only [bind, Except.bind]
    rw [hval, hkey]
  refine ⟨_, _, hA, hR, rfl, ?_, ?_, ?_⟩
  · rw [groupSum_eq _ _ _ hrange]
    simp
  · intro v hv
    rw [groupSum_eq _ _ _ hrange, List.map_map, List.getElem?_map, List.getElem?_range hv, Option.map_some]
    congr 1
    show (((L.filter fun q => q.2 = v).map fun q => rowArea V q.1).sum / 3) = _
    congr 1
    rw [hL]
    clear hA hR hrange hval hkey hL hb wf hv
    induction T with
    | nil => rfl
    | cons l T ih =>
      rw [List.flatMap_cons, List.filter_append, List.map_append, List.sum_append, List.map_cons, List.sum_cons,
        ih (fun l hl => hT l (by simp [hl])) (fun l hl => hv l (by simp [hl]))]
      congr 1
      have hn := (hT l (by simp)).2
      rw [List.filter_map]
      show (((l.filter fun u => decide (u = v)).map fun u => (l, u)).map fun q => rowArea V q.1).sum = _
      rw [List.map_map]
      simp only [Function.comp_def, sum_list_const]
      rw [← List.countP_eq_length_filter]
      by_cases hvl : v ∈ l
      · rw [if_pos hvl]
        have := List.count_eq_one_of_mem hn hvl
        rw [List.count] at this
        rw [show (List.countP (fun u => decide (u = v)) l) = 1 from this]
        simp
      · rw [if_neg hvl]
        have := List.count_eq_zero_of_not_mem hvl
        rw [List.count] at this
        rw [show (List.countP (fun u => decide (u = v)) l) = 0 from this]
        simp
  · have h1 : ∀ M : List ℝ, (M.map fun x => x / 3).sum = M.sum / 3 := by
      intro M
      induction M with
      | nil => simp
      | cons a M ih => rw [List.map_cons, List.sum_cons, ih, List.sum_cons]; ring
    rw [h1, groupSum_total _ _ _ hrange, ← hval]
    have h2 : ∀ M : List ℝ, (M.flatMap fun a => List.replicate 3 a).sum = 3 * M.sum := by
      intro M
      induction M with
      | nil => simp
      | cons a M ih =>
        rw [List.flatMap_cons, List.sum_append, ih, List.sum_cons, List.sum_replicate, nsmul_eq_mul]
        push_cast
        ring
    rw [h2]
    ring

/-! ### The ratios of the edges -/

theorem cot_angle (p : Fin 3 → Vec ℝ D) (h : 0 < triangleArea (p 0) (p 1) (p 2)) (i : Fin 3) :
    1 / Real.tan (triangleAngles p i) = cotangent (p i) (p (i + 1)) (p (i + 2)) := by
  rw [triangleAngles_eq, cot_arccos]
  fin_cases i
  · exact h
  · show 0 < triangleArea (p 1) (p 2) (p 0)
    rwa [area_turn]
  · show 0 < triangleArea (p 2) (p 0) (p 1)
    rwa [area_turn, area_turn]

theorem perm_pair {a b c d : Nat} (h : [a, b].Perm [c, d]) : (c = a ∧ d = b) ∨ (c = b ∧ d = a) := by
  have hc : c ∈ [a, b] := h.mem_iff.2 (by simp)
  rcases List.mem_cons.1 hc with rfl | hc
  · have := (List.perm_cons c).1 h
    exact Or.inl ⟨rfl, (List.singleton_perm_singleton.1 this).symm⟩
  · have hc := List.mem_singleton.1 hc
    subst hc
    have := (List.perm_cons c).1 ((List.Perm.swap a c []).trans h)
    exact Or.inr ⟨rfl, (List.singleton_perm_singleton.1 this).symm⟩

theorem cot_slot (V : List (Vec ℝ D)) {l : List Nat} (hl : l.length = 3) {a b c : Nat} (hc : c < 3)
    (hp : [a, b].Perm (l.eraseIdx c))
    (h : 0 < triangleArea (cornersOf V 3 l 0) (cornersOf V 3 l 1) (cornersOf V 3 l 2)) :
    1 / Real.tan (triangleAngles (cornersOf V 3 l) ⟨c, hc⟩) =
      cotangent (position V (l[c]?.getD 0)) (position V a) (position V b) := by
  rw [cot_angle _ h]
  obtain ⟨p, q, r, rfl⟩ := List.length_eq_three.1 hl
  have : c = 0 ∨ c = 1 ∨ c = 2 := by omega
  rcases this with rfl | rfl | rfl
  · rcases perm_pair hp with ⟨rfl, rfl⟩ | ⟨rfl, rfl⟩
    · rfl
    · exact cotangent_swap _ _ _
  · rcases perm_pair hp with ⟨rfl, rfl⟩ | ⟨rfl, rfl⟩
    · exact cotangent_swap _ _ _
    · rfl
  · rcases perm_pair hp with ⟨rfl, rfl⟩ | ⟨rfl, rfl⟩
    · rfl
    · exact cotangent_swap _ _ _

/-- C60: `compute_edge_ratio` returns, for every edge, half of the cotangents of the angles that face it -/
theorem C60_edge_ratio (hu : UniqSpec uniq) (hT : Simplices 3 T) (hb : fromSimplices uniq 3 T = .ok t)
    (hv : ∀ l ∈ T, ∀ v ∈ l, v < V.length) (hD : 2 ≤ D) (hnd : NonDegenerate V 2 T) :
    ∃ R, computeEdgeRatio t V none = .ok R ∧ R.length = t.nElements 1 ∧
      ∀ (x a b : Nat), (t.elements[1]?.getD [])[x]? = some [a, b] →
        R[x]? = some ((T.map fun l => if [a, b] ⊆ l then ((l.diff [a, b]).map fun c =>
          cotangent (position V c) (position V a) (position V b)).sum else 0).sum / 2) := by
  obtain ⟨-, wf⟩ := fromSimplices_wf hu hT hb
  obtain ⟨E, F, B, O, g1, g2, g3, g4, g5, g6, g7, g8, g9⟩ := wf.level 1 (by omega)
  have hF : F = T := by
    have := wf.top_eq
    rw [show 1 + 1 = 2 from rfl] at g2
    rw [g2] at this
    exact Option.some.inj this
  subst hF
  obtain ⟨hBl, -, hB⟩ := g9
  have hrow : ∀ q ∈ F.zip B, q.1 ∈ F ∧ q.2.length = 3 ∧ ∀ c < 3, ∃ (i : Nat) (e : List Nat),
      q.2[c]? = some i ∧ E[i]? = some e ∧ e.Perm (q.1.eraseIdx c) := by
    intro q hq
    obtain ⟨j, hj, rfl⟩ := List.getElem_of_mem hq
    rw [List.length_zip] at hj
    rw [List.getElem_zip]
    obtain ⟨b, o, h1, -, h2, -, h3⟩ := hB j F[j] (List.getElem?_eq_getElem (by omega))
    rw [List.getElem?_eq_getElem (by omega)] at h1
    have h1 := Option.some.inj h1
    refine ⟨List.getElem_mem _, by rw [h1]; exact h2, ?_⟩
    intro c hc
    obtain ⟨i, s, e, k1, -, k2, k3, -⟩ := h3 c hc
    exact ⟨i, e, by rw [h1]; exact k1, k2, k3⟩
  have hBlen : ∀ b ∈ B, b.length = 3 := by
    intro b hb
    obtain ⟨j, hj, rfl⟩ := List.getElem_of_mem hb
    obtain ⟨b', o, h1, -, h2, -⟩ := hB j F[j] (List.getElem?_eq_getElem (by omega))
    rw [List.getElem?_eq_getElem hj] at h1
    rw [Option.some.inj h1]
    exact h2
  have hangles : computeTriangleAngles V F = .ok (F.map fun l => triangleAngles (cornersOf V 3 l)) := by
    unfold computeTriangleAngles
    exact mapM_rows (fun p => .ok (triangleAngles p)) _ hT hv fun l => rfl
  have hrange : ∀ x, x ∈ (slots F B).map (fun s => s.1.2[s.2]?.getD 0) ↔ x < E.length := by
    intro x
    rw [← slots_key hBl hBlen, List.mem_flatten]
    constructor
    · rintro ⟨b, hb, hx⟩
      obtain ⟨j, hj, rfl⟩ := List.getElem_of_mem hb
      obtain ⟨c, hc, rfl⟩ := List.getElem_of_mem hx
      have h3 := hBlen _ hb
      obtain ⟨-, -, h4⟩ := hrow (F[j], B[j]) (by
        rw [← List.getElem_zip (h := by rw [List.length_zip]; omega)]
        exact List.getElem_mem _)
      obtain ⟨i, e, k1, k2, -⟩ := h4 c (by omega)
      rw [List.getElem?_eq_getElem hc] at k1
      rw [Option.some.inj k1]
      exact (List.getElem?_eq_some_iff.1 k2).1
    · intro hx
      obtain ⟨l, hl, c, hc, hp⟩ := g8.2 E[x] (List.getElem_mem _)
      obtain ⟨j, hj, rfl⟩ := List.getElem_of_mem hl
      have hc3 : c < 3 := by rw [← (hT _ hl).1]; exact hc
      obtain ⟨-, -, h4⟩ := hrow (F[j], B[j]) (by
        rw [← List.getElem_zip (h := by rw [List.length_zip]; omega)]
        exact List.getElem_mem _)
      obtain ⟨i, e, k1, k2, k3⟩ := h4 c hc3
      refine ⟨B[j], List.getElem_mem _, ?_⟩
      have : x = i := by
        rw [elIdx_unique g7 k2 k3]
        exact elIdx_unique g7 (List.getElem?_eq_getElem hx) hp
      rw [this]
      exact List.mem_of_getElem? k1
  have hval := slots_value (T := F) (B := B) hBl fun l i => 1 / Real.tan (triangleAngles (cornersOf V 3 l) i)
  refine ⟨(groupSum ((slots F B).map fun s => s.1.2[s.2]?.getD 0)
    ((slots F B).map fun s => if h : s.2 < 3 then 1 / Real.tan (triangleAngles (cornersOf V 3 s.1.1) ⟨s.2, h⟩) else 0)).map
      fun x => x / 2, ?_, ?_, ?_⟩
  · unfold computeEdgeRatio
    rw [if_neg (by simp), wf.top_eq, Option.getD_some, hangles]
    simp only [bind, Except.bind]
    rw [g3]
    simp only
    rw [← hval, ← slots_key hBl hBlen, List.flatMap_map, List.flatMap_map]
  · rw [groupSum_eq _ _ _ hrange]
    simp [Topo.nElements, g1]
  · intro x a b hx
    rw [g1, Option.getD_some] at hx
    have hxl := (List.getElem?_eq_some_iff.1 hx).1
    have hnab := (g5 _ (List.mem_of_getElem? hx)).2
    rw [groupSum_eq _ _ _ hrange, List.map_map, List.getElem?_map, List.getElem?_range hxl, Option.map_some]
    congr 1
    simp only [Function.comp_apply]
    congr 1
    refine slots_sum hBl _ _ _ ?_
    intro q hq
    obtain ⟨hqF, hq3, hqr⟩ := hrow q hq
    obtain ⟨hl3, hln⟩ := hT q.1 hqF
    rw [← slot_sum hl3 hln rfl hnab]
    have hkey : ∀ c < 3, (q.2[c]?.getD 0 = x ↔ [a, b].Perm (q.1.eraseIdx c)) := by
      intro c hc
      obtain ⟨i, e, k1, k2, k3⟩ := hqr c hc
      rw [k1, Option.getD_some]
      have hi := elIdx_unique g7 k2 k3
      constructor
      · rintro rfl
        rw [hx] at k2
        rw [Option.some.inj k2]
        exact k3
      · intro hp
        rw [hi, elIdx_unique g7 hx hp]
    rw [List.filter_congr (q := fun c => decide ([a, b].Perm (q.1.eraseIdx c)))]
    · apply congrArg List.sum
      apply List.map_congr_left
      intro c hc
      obtain ⟨hc1, hc2⟩ := List.mem_filter.1 hc
      have hc3 := List.mem_range.1 hc1
      have hc2 := of_decide_eq_true hc2
      rw [dif_pos hc3]
      have hap := area_pos hnd hD hqF
      rw [vol_three] at hap
      exact cot_slot V hl3 hc3 hc2 hap
    · intro c hc
      exact decide_eq_decide.2 (hkey c (List.mem_range.1 hc))

/-- a complex with vertex weights has no edge ratios -/
theorem C60_weights (t : Topo) (V : List (Vec ℝ D)) (w : List ℝ) :
    computeEdgeRatio t V (some w) = .error .assertionError := rfl

theorem innerProd_sub_left (u v w : Fin D → ℝ) : innerProd (u - v) w = innerProd u w - innerProd v w := by
  unfold innerProd
  rw [← Finset.sum_sub_distrib]
  exact Finset.sum_congr rfl fun c _ => by simp only [Pi.sub_apply]; ring

theorem innerProd_sub_right (u v w : Fin D → ℝ) : innerProd w (u - v) = innerProd w u - innerProd w v := by
  rw [innerProd_comm, innerProd_sub_left, innerProd_comm u, innerProd_comm v]

theorem innerProd_add_left (u v w : Fin D → ℝ) : innerProd (u + v) w = innerProd u w + innerProd v w := by
  unfold innerProd
  rw [← Finset.sum_add_distrib]
  exact Finset.sum_congr rfl fun c _ => by simp only [Pi.add_apply]; ring

theorem innerProd_smul_left (r : ℝ) (u w : Fin D → ℝ) : innerProd (r • u) w = r * innerProd u w := by
  unfold innerProd
  rw [Finset.mul_sum]
  exact Finset.sum_congr rfl fun c _ => by simp only [Pi.smul_apply, smul_eq_mul]; ring

theorem dist2_innerProd (p q : Fin D → ℝ) : dist2 p q = innerProd (p - q) (p - q) := by
  unfold dist2 innerProd
  exact Finset.sum_congr rfl fun c _ => by simp only [Pi.sub_apply]; ring

/-- the distance between the centers of an edge and of a triangle, with the sign of the coordinate of
the third corner -/
theorem center_distance {a b z : Nat} (hab : a ≠ b) (haz : a ≠ z) (hbz : b ≠ z)
    {ye yl : Nat → ℝ} {m c : Fin D → ℝ} (he : CenterCoords V {a, b} ye m) (hl : CenterCoords V {a, b, z} yl c)
    (hpab : position V a ≠ position V b)
    (h : 0 < triangleArea (position V z) (position V a) (position V b)) :
    Real.sign (yl z) * Real.sqrt (innerProd (c - m) (c - m)) =
      cotangent (position V z) (position V a) (position V b) / 2 *
        Real.sqrt (innerProd (position V b - position V a) (position V b - position V a)) := by
  obtain ⟨ha2, hb2⟩ := he.edge hab hpab
  set u := position V a - position V z with hu
  set v := position V b - position V z with hv
  have hone := hl.one
  rw [Finset.sum_insert (by simp [hab, haz]), Finset.sum_pair hbz] at hone
  have hcz : c - position V z = yl a • u + yl b • v := by
    funext j
    have := hl.point j
    rw [Finset.sum_insert (by simp [hab, haz]), Finset.sum_pair hbz] at this
    simp only [Pi.sub_apply, Pi.add_apply, Pi.smul_apply, smul_eq_mul, hu, hv, this]
    linear_combination (position V z j) * hone
  have hm : m - position V z = (1 / 2 : ℝ) • u + (1 / 2 : ℝ) • v := by
    funext j
    have := he.point j
    rw [Finset.sum_pair hab, ha2, hb2] at this
    simp only [Pi.sub_apply, Pi.add_apply, Pi.smul_apply, smul_eq_mul, hu, hv, this]
    ring
  have hd : c - m = (yl a - 1 / 2) • u + (yl b - 1 / 2) • v := by
    have : c - m = (c - position V z) - (m - position V z) := by abel
    rw [this, hcz, hm, sub_smul, sub_smul]
    abel
  have heq : ∀ w : Fin D → ℝ, dist2 c (w + position V z) = dist2 c (position V z) →
      2 * innerProd (c - position V z) w = innerProd w w := by
    intro w hw
    rw [dist2_innerProd, dist2_innerProd, show c - (w + position V z) = (c - position V z) - w by abel] at hw
    generalize c - position V z = r at hw ⊢
    rw [innerProd_sub_left, innerProd_sub_right r w r, innerProd_sub_right r w w, innerProd_comm w r] at hw
    linarith
  have e1 := heq u (by
    rw [hu, sub_add_cancel]
    exact hl.equidistant a (by simp) z (by simp))
  have e2 := heq v (by
    rw [hv, sub_add_cancel]
    exact hl.equidistant b (by simp) z (by simp))
  rw [hcz, innerProd_add_left, innerProd_smul_left, innerProd_smul_left] at e1 e2
  rw [innerProd_comm v u] at e1
  have hba : position V b - position V a = v - u := by rw [hu, hv]; abel
  rw [hba]
  have hlen : innerProd (v - u) (v - u) = innerProd u u - 2 * innerProd u v + innerProd v v := by
    rw [innerProd_sub_left, innerProd_sub_right v u v, innerProd_sub_right v u u, innerProd_comm v u]
    ring
  unfold cotangent
  rw [← hu, ← hv]
  set uu := innerProd u u
  set uv := innerProd u v
  set vv := innerProd v v
  have hG : 0 < uu * vv - uv ^ 2 := by
    unfold triangleArea at h
    have : 0 < Real.sqrt (uu * vv - uv ^ 2) := by
      rw [← hu, ← hv] at h
      linarith
    exact Real.sqrt_pos.1 this
  have harea : 2 * triangleArea (position V z) (position V a) (position V b) = Real.sqrt (uu * vv - uv ^ 2) := by
    unfold triangleArea
    rw [← hu, ← hv]
    ring
  have hyz : yl z * (uu * vv - uv ^ 2) = uv * innerProd (v - u) (v - u) / 2 := by
    rw [hlen]
    have hz : yl z = 1 - yl a - yl b := by linarith
    rw [hz]
    linear_combination (-(vv - uv) / 2) * e1 - ((uu - uv) / 2) * e2
  have hdd : innerProd (c - m) (c - m) = yl z * uv / 2 := by
    have hdu : innerProd (c - m) u = - uv / 2 := by
      rw [hd, innerProd_add_left, innerProd_smul_left, innerProd_smul_left, innerProd_comm v u]
      linear_combination e1 / 2
    have hdv : innerProd (c - m) v = - uv / 2 := by
      rw [hd, innerProd_add_left, innerProd_smul_left, innerProd_smul_left]
      linear_combination e2 / 2
    conv_lhs => rw [innerProd_comm]
    conv_lhs => arg 1; rw [hd]
    rw [innerProd_add_left, innerProd_smul_left, innerProd_smul_left, innerProd_comm u, innerProd_comm v, hdu, hdv]
    linear_combination (-uv / 2) * hone
  rw [harea]
  have hsG := Real.sqrt_pos.2 hG
  have hS := innerProd_self_nonneg (v - u)
  have hSp : 0 < innerProd (v - u) (v - u) := innerProd_self_pos (by
    rw [← hba]
    exact sub_ne_zero.2 (Ne.symm hpab))
  have hyz2 : yl z = uv * innerProd (v - u) (v - u) / (2 * (uu * vv - uv ^ 2)) := by
    field_simp
    linarith
  have hsq : innerProd (c - m) (c - m) = (|uv| / Real.sqrt (uu * vv - uv ^ 2) / 2 * Real.sqrt (innerProd (v - u) (v - u))) ^ 2 := by
    rw [hdd, hyz2, mul_pow, div_pow, div_pow, Real.sq_sqrt hG.le, Real.sq_sqrt hS, sq_abs]
    field_simp
  rw [hsq, Real.sqrt_sq (by positivity)]
  have hsign : Real.sign (yl z) * |uv| = uv := by
    rcases lt_trichotomy uv 0 with h0 | h0 | h0
    · have : yl z < 0 := by
        rw [hyz2]
        exact div_neg_of_neg_of_pos (mul_neg_of_neg_of_pos h0 hSp) (by linarith)
      rw [Real.sign_of_neg this, abs_of_neg h0]
      ring
    · rw [h0]; simp
    · have : 0 < yl z := by
        rw [hyz2]
        positivity
      rw [Real.sign_of_pos this, abs_of_pos h0]
      ring
  calc _ = (Real.sign (yl z) * |uv|) / Real.sqrt (uu * vv - uv ^ 2) / 2 * Real.sqrt (innerProd (v - u) (v - u)) := by ring
    _ = _ := by rw [hsign]

theorem area_corners (hT : Simplices 3 T) (hnd : NonDegenerate V 2 T) (hD : 2 ≤ D) {l : List Nat} (hl : l ∈ T)
    {a b z : Nat} (hp : [a, b, z].Perm l) : 0 < triangleArea (position V z) (position V a) (position V b) := by
  have h1 := area_pos hnd hD hl
  obtain ⟨hl3, hln⟩ := hT l hl
  have h2 := vol_perm (M := 2) (position V) [a, b, z] l rfl hl3 hp hln
  have h3 : vol (cornersOf V 3 l) = vol (fun k : Fin 3 => position V l[k]) := by
    congr 1
    funext k
    simp only [cornersOf, Fin.getElem_fin]
    rw [List.getElem?_eq_getElem (by omega), Option.getD_some]
  rw [h3, ← h2, vol_three] at h1
  have h4 : 0 < triangleArea (position V a) (position V b) (position V z) := h1
  rwa [← area_turn, area_turn, ← area_turn, ← area_turn] at h4

section

variable {solve : List (List Int) → Option (List Int)}
  {eigh : (n : Nat) → Matrix (Fin n) (Fin n) ℝ → Eigh n ℝ} {ratio : ℝ} {y : Finset Nat → Nat → ℝ}
  {ctr : Finset Nat → Fin D → ℝ}

/-- C60: the ratios are those of the metric: the (signed) length of the dual edge divided by the length
of the edge, for obtuse triangles too -/
theorem C60_hodge (h : MetricInput uniq solve eigh ratio 2 T t V y ctr) :
    ∃ PM DM R P Q, metric solve eigh ratio t V none = .ok (PM, DM) ∧ computeEdgeRatio t V none = .ok R ∧
      PM[1]? = some P ∧ DM[1]? = some Q ∧ R.length = t.nElements 1 ∧ P.length = t.nElements 1 ∧
      Q.length = t.nElements 1 ∧
      ∀ x < t.nElements 1, ∃ p q, P[x]? = some p ∧ Q[x]? = some q ∧ 0 < p ∧ R[x]? = some (q / p) := by
  obtain ⟨-, wf⟩ := fromSimplices_wf h.uniq_ok h.rows h.built
  obtain ⟨PM, DM, hm, -, -, hP⟩ := C59_primal h
  obtain ⟨PM', DM', hm', hQ⟩ := C59_dual h
  rw [hm] at hm'
  obtain ⟨rfl, rfl⟩ := Prod.mk.inj (Except.ok.inj hm')
  obtain ⟨P, hP1, hP2, hP3⟩ := hP 1 (by omega) (Or.inl (by omega))
  obtain ⟨Q, hQ1, hQ2, hQ3⟩ := hQ 1 (by omega)
  obtain ⟨R, hR1, hR2, hR3⟩ := C60_edge_ratio h.uniq_ok h.rows h.built h.vertices h.dims h.nondegenerate
  refine ⟨PM, DM, R, P, Q, hm, hR1, hP1, hQ1, hR2, hP2, hQ2, ?_⟩
  intro x hx
  have hxe : (t.elements[1]?.getD [])[x]? = some ((t.elements[1]?.getD [])[x]'hx) := List.getElem?_eq_getElem hx
  obtain ⟨he1, he2, l0, hl0, hs0⟩ := wf.element_face h.rows (k := 1) (by omega) (List.mem_of_getElem? hxe)
  obtain ⟨a, b, hab⟩ := List.length_eq_two.1 he1
  rw [hab] at hxe he2 hs0
  have hne : a ≠ b := by
    rintro rfl
    simp at he2
  have hpne := position_ne h.nondegenerate h.rows hl0 (hs0 (by simp : a ∈ [a, b])) (hs0 (by simp : b ∈ [a, b])) hne
  obtain ⟨p, hp1, hp2⟩ := hP3 x _ hxe
  obtain ⟨piece, hq1, hq2⟩ := (hQ3 x _ hxe).2 (by omega)
  have hp : p = Real.sqrt (innerProd (position V b - position V a) (position V b - position V a)) := by
    rw [volume_eq_vol (by have := h.dims; omega)] at hp1
    rw [← Except.ok.inj hp1, vol_two]
    rfl
  have hpos : 0 < p := by
    rw [hp]
    exact Real.sqrt_pos.2 (innerProd_self_pos (sub_ne_zero.2 (Ne.symm hpne)))
  refine ⟨p, _, hp2, hq2, hpos, ?_⟩
  rw [hR3 x a b hxe]
  congr 1
  rw [eq_div_iff hpos.ne', div_mul_eq_mul_div, div_eq_iff (by norm_num), ← sum_map_mul_right', ← sum_map_mul_right']
  apply congrArg List.sum
  apply List.map_congr_left
  intro l hl
  by_cases hs : [a, b] ⊆ l
  · rw [if_pos hs, if_pos hs]
    obtain ⟨z, hz, hperm⟩ := diff_single (h.rows l hl).1 rfl he2 hs
    have hfin : l.toFinset = {a, b, z} := by
      rw [← toFinset_perm hperm]
      ext v
      simp
    have hnd : [a, b, z].Nodup := hperm.nodup_iff.2 (h.rows l hl).2
    have haz : a ≠ z := by
      rintro rfl
      simp at hnd
    have hbz : b ≠ z := by
      rintro rfl
      simp at hnd
    have hsub : ({a, b} : Finset Nat) ⊆ l.toFinset := by
      rw [hfin]
      intro v
      simp only [Finset.mem_insert, Finset.mem_singleton]
      tauto
    have hce := h.centers {a, b} ⟨⟨a, by simp⟩, l, hl, hsub⟩
    have hcl := h.centers l.toFinset ⟨⟨a, hsub (by simp)⟩, l, hl, Finset.Subset.refl _⟩
    have hpiece : piece [z] = Real.sqrt (innerProd (ctr l.toFinset - ctr {a, b}) (ctr l.toFinset - ctr {a, b})) := by
      have := hq1 [z]
      rw [volume_eq_vol (by have := h.dims; omega)] at this
      rw [← Except.ok.inj this]
      have e0 : chainOfCenters ctr [a, b] [z] 1 0 = ctr {a, b} := by
        unfold chainOfCenters
        congr 1
        ext v
        simp
      have e1 : chainOfCenters ctr [a, b] [z] 1 1 = ctr l.toFinset := by
        unfold chainOfCenters
        rw [hfin]
        congr 1
        ext v
        simp
      show vol (M := 1) (chainOfCenters ctr [a, b] [z] 1) = _
      rw [vol_two, e0, e1]
    have hperm1 : [z].permutations = [[z]] := by
      simp [List.permutations, List.permutationsAux_cons, List.permutationsAux_nil]
    rw [hz, hperm1]
    simp only [List.map_cons, List.map_nil, List.sum_cons, List.sum_nil, add_zero, List.getLast?_singleton,
      Option.getD_some]
    rw [hpiece]
    have hcd := center_distance hne haz hbz hce (hfin ▸ hcl) hpne (area_corners h.rows h.nondegenerate h.dims hl hperm)
    rw [hfin]
    rw [hcd, hp]
    ring
  · rw [if_neg hs, if_neg hs]
    ring

end

theorem cot_of_angle {a b c : Fin D → ℝ} {γ : ℝ} (h : 0 < triangleArea a b c) (hγ : IsAngle (b - a) (c - a) γ) :
    0 < Real.sin γ ∧ cotangent a b c = Real.cos γ / Real.sin γ := by
  obtain ⟨h0, h1, h2⟩ := hγ
  set u := b - a with hu
  set v := c - a with hv
  have hΔ : 0 < innerProd u u * innerProd v v - innerProd u v ^ 2 := by
    unfold triangleArea at h
    rw [← hu, ← hv] at h
    exact Real.sqrt_pos.1 (by linarith)
  have hs0 := Real.sin_nonneg_of_nonneg_of_le_pi h0 h1
  have hsq : innerProd u u * innerProd v v - innerProd u v ^ 2 =
      Real.sin γ ^ 2 * (innerProd u u * innerProd v v) := by
    rw [← h2, mul_pow, mul_pow, Real.sq_sqrt (innerProd_self_nonneg u), Real.sq_sqrt (innerProd_self_nonneg v),
      Real.sin_sq]
    ring
  have hs : 0 < Real.sin γ := by
    refine lt_of_le_of_ne hs0 ?_
    intro h3
    rw [hsq, ← h3] at hΔ
    simp at hΔ
  refine ⟨hs, ?_⟩
  have hN : 0 ≤ Real.sqrt (innerProd u u) * Real.sqrt (innerProd v v) := by positivity
  have hN2 : (Real.sqrt (innerProd u u) * Real.sqrt (innerProd v v)) ^ 2 = innerProd u u * innerProd v v := by
    rw [mul_pow, Real.sq_sqrt (innerProd_self_nonneg u), Real.sq_sqrt (innerProd_self_nonneg v)]
  unfold cotangent triangleArea
  rw [← hu, ← hv, hsq, ← hN2, ← mul_pow, Real.sqrt_sq (by positivity), ← h2]
  have hN0 : Real.sqrt (innerProd u u) * Real.sqrt (innerProd v v) ≠ 0 := by
    intro h3
    rw [hsq, ← hN2, h3] at hΔ
    simp at hΔ
  rw [show 2 * (Real.sin γ * (Real.sqrt (innerProd u u) * Real.sqrt (innerProd v v)) / 2) =
    Real.sin γ * (Real.sqrt (innerProd u u) * Real.sqrt (innerProd v v)) by ring]
  exact mul_div_mul_right _ _ hN0

/-- C60: the ratio of an edge between two triangles is nonnegative exactly if the two angles that face
the edge add up to at most `pi`, which is the condition of Delaunay -/
theorem C60_delaunay (hu : UniqSpec uniq) (hT : Simplices 3 T) (hb : fromSimplices uniq 3 T = .ok t)
    (hv : ∀ l ∈ T, ∀ v ∈ l, v < V.length) (hD : 2 ≤ D) (hnd : NonDegenerate V 2 T) :
    ∃ R, computeEdgeRatio t V none = .ok R ∧
      ∀ (x a b c d : Nat) (l₁ l₂ : List Nat), (t.elements[1]?.getD [])[x]? = some [a, b] →
        T.filter (fun l => decide ([a, b] ⊆ l)) = [l₁, l₂] → l₁.Perm [a, b, c] → l₂.Perm [a, b, d] →
        ∀ γ δ, IsAngle (position V a - position V c) (position V b - position V c) γ →
          IsAngle (position V a - position V d) (position V b - position V d) δ →
          ∃ r, R[x]? = some r ∧ (0 ≤ r ↔ γ + δ ≤ Real.pi) := by
  obtain ⟨R, hR1, hR2, hR3⟩ := C60_edge_ratio hu hT hb hv hD hnd
  refine ⟨R, hR1, ?_⟩
  intro x a b c d l₁ l₂ hx hf hp1 hp2 γ δ hγ hδ
  have hm1 : l₁ ∈ T := List.mem_of_mem_filter (p := fun l => decide ([a, b] ⊆ l)) (by rw [hf]; simp)
  have hm2 : l₂ ∈ T := List.mem_of_mem_filter (p := fun l => decide ([a, b] ⊆ l)) (by rw [hf]; simp)
  refine ⟨_, hR3 x a b hx, ?_⟩
  have hsum : ∀ g : List Nat → ℝ, (T.map fun l => if [a, b] ⊆ l then g l else 0).sum = g l₁ + g l₂ := by
    intro g
    have : (T.map fun l => if [a, b] ⊆ l then g l else 0).sum =
        ((T.filter fun l => decide ([a, b] ⊆ l)).map g).sum := by
      clear hx hf hp1 hp2 hm1 hm2 hR1 hR2 hR3 hb hnd hT hv
      induction T with
      | nil => rfl
      | cons l T ih =>
        rw [List.map_cons, List.sum_cons, ih, List.filter_cons]
        by_cases hs : [a, b] ⊆ l
        · rw [if_pos hs, if_pos (decide_eq_true hs), List.map_cons, List.sum_cons]
        · rw [if_neg hs, if_neg (by simpa using hs), zero_add]
    rw [this, hf]
    simp
  rw [hsum]
  have hdiff : ∀ {l : List Nat} {z : Nat}, l ∈ T → l.Perm [a, b, z] → l.diff [a, b] = [z] := by
    intro l z hl hp
    have : (l.diff [a, b]).Perm ([a, b, z].diff [a, b]) := hp.diff_right _
    simpa using this
  rw [hdiff hm1 hp1, hdiff hm2 hp2]
  simp only [List.map_cons, List.map_nil, List.sum_cons, List.sum_nil, add_zero]
  obtain ⟨s1, c1⟩ := cot_of_angle (area_corners hT hnd hD hm1 hp1.symm) hγ
  obtain ⟨s2, c2⟩ := cot_of_angle (area_corners hT hnd hD hm2 hp2.symm) hδ
  rw [c1, c2]
  have hsin : (Real.cos γ / Real.sin γ + Real.cos δ / Real.sin δ) / 2 =
      Real.sin (γ + δ) / (2 * (Real.sin γ * Real.sin δ)) := by
    rw [Real.sin_add]
    field_simp
    ring
  rw [hsin]
  have hden : 0 < 2 * (Real.sin γ * Real.sin δ) := by positivity
  constructor
  · intro h0
    have h0 : 0 ≤ Real.sin (γ + δ) := by
      have := mul_nonneg h0 hden.le
      rwa [div_mul_cancel₀ _ hden.ne'] at this
    by_contra hc
    push Not at hc
    have hlt : γ + δ < 2 * Real.pi := by
      have h1 : γ < Real.pi := lt_of_le_of_ne hγ.2.1 (by rintro rfl; simp at s1)
      have h2 : δ < Real.pi := lt_of_le_of_ne hδ.2.1 (by rintro rfl; simp at s2)
      linarith
    have : 0 < Real.sin (γ + δ - Real.pi) := Real.sin_pos_of_pos_of_lt_pi (by linarith) (by linarith)
    rw [Real.sin_sub_pi] at this
    linarith
  · intro h0
    exact div_nonneg (Real.sin_nonneg_of_nonneg_of_le_pi (by linarith [hγ.1, hδ.1]) h0) hden.le

/-! ### Instances -/

theorem square_triangles : Simplices 3 [[0, 1, 2], [0, 2, 3]] ∧
    fromSimplices List.dedup 3 [[0, 1, 2], [0, 2, 3]] = .ok (built 3 [[0, 1, 2], [0, 2, 3]]) :=
  ⟨simplices_of_all (by decide), by decide +kernel⟩

/-- the hypotheses of `C60_vertex_areas` and `C60_edge_ratio`, for a square of two triangles -/
example : ∃ t, UniqSpec List.dedup ∧ Simplices 3 [[0, 1, 2], [0, 2, 3]] ∧
    fromSimplices List.dedup 3 [[0, 1, 2], [0, 2, 3]] = .ok t ∧
    (∀ l ∈ [[0, 1, 2], [0, 2, 3]], ∀ v ∈ l, v < squareCorners.length) ∧
    NonDegenerate squareCorners 2 [[0, 1, 2], [0, 2, 3]] :=
  ⟨_, uniqSpec_dedup, square_triangles.1, square_triangles.2, by decide, squareCorners_nondegenerate⟩

/-- the hypotheses of `C60_delaunay` about the edge, for the diagonal of the square -/
example : ((built 3 [[0, 1, 2], [0, 2, 3]]).elements[1]?.getD [])[4]? = some [2, 0] ∧
    [[0, 1, 2], [0, 2, 3]].filter (fun l => decide ([2, 0] ⊆ l)) = [[0, 1, 2], [0, 2, 3]] ∧
    [0, 1, 2].Perm [2, 0, 1] ∧ [0, 2, 3].Perm [2, 0, 3] := by decide +kernel

/-- C60: the docstring of `compute_edge_ratio` promises the length of the edge divided by the length of
its dual.  In the square the diagonal has the ratio 0 and a side the ratio 1/2, the inverse of what is
promised. -/
theorem C60_docstring : ∃ t R, fromSimplices List.dedup 3 [[0, 1, 2], [0, 2, 3]] = .ok t ∧
    computeEdgeRatio t squareCorners none = .ok R ∧
    (∃ x : Nat, (t.elements[1]?.getD [])[x]? = some [2, 0] ∧ R[x]? = some 0) ∧
    (∃ x : Nat, (t.elements[1]?.getD [])[x]? = some [0, 1] ∧ R[x]? = some (1 / 2)) := by
  obtain ⟨R, h1, -, h3⟩ := C60_edge_ratio uniqSpec_dedup square_triangles.1 square_triangles.2
    (V := squareCorners) (by decide) (Nat.le_refl 2) squareCorners_nondegenerate
  refine ⟨_, R, square_triangles.2, h1, ⟨4, by decide +kernel, ?_⟩, ⟨1, by decide +kernel, ?_⟩⟩
  · rw [h3 4 2 0 (by decide +kernel)]
    simp [cotangent, innerProd, position, squareCorners, Fin.sum_univ_two]
  · rw [h3 1 0 1 (by decide +kernel)]
    simp [cotangent, innerProd, position, squareCorners, Fin.sum_univ_two, triangleArea]

end Verif.Props
