/-
Loop subdivision on the sphere: the new positions.
-/
import Verif.Model.Icosphere
import Verif.Lemmas.LoopSurface
import Verif.Lemmas.UnitCenters
import Verif.Lemmas.MetricCenters
import Verif.Lemmas.SphericalCells

set_option linter.unusedSectionVars false

namespace Verif

open Model Spec

variable {T : List (List Nat)} {t : Topo} {V : List (Fin 3 → ℝ)}
  {eigh : (n : Nat) → Matrix (Fin n) (Fin n) ℝ → Eigh n ℝ} {ratio : ℝ}

/-- the positions after a step: the old ones, and the middles of the edges -/
noncomputable def loopVertices (V : List (Fin 3 → ℝ)) (t : Topo) : List (Fin 3 → ℝ) :=
  V ++ (t.elements[1]?.getD []).map fun e =>
    unitOf (position V (e[0]?.getD 0) + position V (e[1]?.getD 0))

theorem position_mem {v : Nat} (h : v < V.length) : position V v ∈ V := by
  unfold position
  rw [List.getElem?_eq_getElem h, Option.getD_some]
  exact List.getElem_mem h

theorem unitOf_unit {a : Fin 3 → ℝ} (h : OnUnitSphere a) : unitOf a = a := by
  have h' : dot a a = 1 := h
  funext i
  simp [unitOf, h']

theorem ne_zero_of_unit {a : Fin 3 → ℝ} (h : OnUnitSphere a) : a ≠ 0 := by
  rintro rfl
  simp [OnUnitSphere, innerProd] at h

theorem innerProd_add_self (a b : Fin 3 → ℝ) :
    innerProd (a + b) (a + b) = innerProd a a + 2 * innerProd a b + innerProd b b := by
  simp only [innerProd, Fin.sum_univ_three, Pi.add_apply]; ring

theorem sum_ne_zero {a b : Fin 3 → ℝ} (ha : OnUnitSphere a) (hb : OnUnitSphere b) (h : -1 < innerProd a b) :
    a + b ≠ 0 := by
  intro h0
  have := innerProd_add_self a b
  rw [h0, ha, hb] at this
  simp [innerProd] at this
  simp only [innerProd] at h
  linarith

/-- the levels of points and edges -/
theorem unit_positions (wf : WF 2 T t) (hs : Simplices 3 T) (hne : T ≠ [])
    (hV : V.length = t.nElements 0) (hu : ∀ p ∈ V, OnUnitSphere p)
    (hE : ∀ k M, M.transpose = M → IsEigh M (eigh k M).v (eigh k M).w) (hr : 12 ≤ ratio) :
    ∃ L, primalPositions eigh ratio t V none = .ok
      [(t.elements[0]?.getD []).map fun e => position V (e[0]?.getD 0),
       (t.elements[1]?.getD []).map fun e => (fun k =>
        (position V (e[0]?.getD 0) k + position V (e[1]?.getD 0) k) / 2), L] := by
  obtain ⟨E0, E1, E2, hEs⟩ : ∃ E0 E1 E2, t.elements = [E0, E1, E2] := by
    have := wf.lenE
    rcases h : t.elements with _ | ⟨a, _ | ⟨b, _ | ⟨c, _ | ⟨d, r⟩⟩⟩⟩ <;> rw [h] at this <;> simp at this
    exact ⟨a, b, c, rfl⟩
  have hlev : ∀ k ≤ 2, ∀ e ∈ t.elements[k]?.getD [], e.length = k + 1 ∧ ∀ v ∈ e, v < V.length := by
    intro k hk e he
    obtain ⟨h1, -, l, hl, h3⟩ := wf.element_face hs hk he
    exact ⟨h1, fun v hv => by rw [hV]; exact wf.vertex_lt hs hl (h3 hv)⟩
  have l0 := hlev 0 (by omega)
  have l1 := hlev 1 (by omega)
  have l2 := hlev 2 (by omega)
  have n0 := wf.level_ne hs hne (k := 0) (by omega)
  have n1 := wf.level_ne hs hne (k := 1) (by omega)
  have n2 := wf.level_ne hs hne (k := 2) (by omega)
  simp only [hEs, List.getElem?_cons_zero, List.getElem?_cons_succ, Option.getD_some] at l0 l1 l2 n0 n1 n2 ⊢
  obtain ⟨L, hL⟩ := primalPosition_total (eigh 4) (hE 4) ratio
    (E2.map fun e => (Matrix.of (cornersOf V 3 e), (none : Option (Vec ℝ 3)))) (by simpa using n2) (by omega)
  refine ⟨L, ?_⟩
  have h0 := primalPosition_point (eigh 2) (hE 2) hr (E0.map (cornersOf V 1)) (by simpa using n0) (by
    intro p hp
    obtain ⟨e, he, rfl⟩ := List.mem_map.mp hp
    refine hu _ (position_mem ?_)
    have := l0 e he
    exact this.2 _ (by rw [List.getElem?_eq_getElem (by simp; omega)]; exact List.getElem_mem _))
  have h1 := primalPosition_edge (eigh 3) (hE 3) hr (E1.map (cornersOf V 2)) (by simpa using n1) (by
    intro p hp i
    obtain ⟨e, he, rfl⟩ := List.mem_map.mp hp
    refine hu _ (position_mem ?_)
    have := l1 e he
    have hi := i.2
    exact this.2 _ (by rw [List.getElem?_eq_getElem (by omega)]; exact List.getElem_mem _))
  rw [List.map_map, List.map_map] at h0 h1
  unfold primalPositions
  rw [hEs]
  simp only [List.zipIdx_cons, List.zipIdx_nil, Nat.zero_add, Nat.reduceAdd, List.mapM_cons, List.mapM_nil]
  rw [cornerBatch_ok l0, cornerBatch_ok l1, cornerBatch_ok l2]
  simp only [bind, Except.bind, pure, Except.pure]
  have h0' : primalPosition (eigh 2) ratio (E0.map fun e => (Matrix.of (cornersOf V 1 e), none)) = _ := h0
  have h1' : primalPosition (eigh 3) ratio (E1.map fun e => (Matrix.of (cornersOf V 2 e), none)) = _ := h1
  rw [h0', h1', hL]
  rfl

theorem vertexRows (wf : WF 2 T t) : t.elements[0]?.getD [] = (List.range (t.nElements 0)).map fun v => [v] := by
  apply List.ext_getElem
  · simp [Topo.nElements]
  · intro i h1 h2
    rw [List.getElem_map, List.getElem_range]
    exact wf.vertex (by omega) (List.getElem?_eq_getElem h1)

theorem position_self : (List.range V.length).map (position V) = V := by
  apply List.ext_getElem
  · simp
  · intro i h1 h2
    simp [position, h2]

/-- one step of the refinement -/
theorem sphericalLoop_ok {uniq : List (List Nat) → List (List Nat)} (hq : UniqSpec uniq) (wf : WF 2 T t)
    (hs : Simplices 3 T) (hne : T ≠ [])
    (hV : V.length = t.nElements 0) (hu : ∀ p ∈ V, OnUnitSphere p)
    (hd : ∀ l ∈ T, ∀ v ∈ l, ∀ w ∈ l, 0 ≤ innerProd (position V v) (position V w))
    (hE : ∀ k M, M.transpose = M → IsEigh M (eigh k M).v (eigh k M).w) (hr : 12 ≤ ratio) :
    ∃ t', sphericalLoop eigh ratio uniq (V, t) = .ok (loopVertices V t, t') ∧
      subdivideLoop uniq t = .ok t' ∧ WF 2 (T.map (kidsOf t)).flatten t' := by
  obtain ⟨t', ht', wf'⟩ := wf.subdivideLoop_ok hq hs
  obtain ⟨L, hL⟩ := unit_positions wf hs hne hV hu hE hr
  refine ⟨t', ?_, ht', wf'⟩
  have hpos : (([(t.elements[0]?.getD []).map fun e => position V (e[0]?.getD 0),
       (t.elements[1]?.getD []).map fun e => (fun k =>
        (position V (e[0]?.getD 0) k + position V (e[1]?.getD 0) k) / 2), L].map
          fun level => level.map normalizedNan).take 2).flatten = (loopVertices V t).map some := by
    simp only [List.map_cons, List.map_nil, List.take_succ_cons, List.take_zero, List.flatten_cons,
      List.flatten_nil, List.append_nil, loopVertices, List.map_append, List.map_map]
    congr 1
    · rw [vertexRows wf, List.map_map, ← hV]
      conv_rhs => rw [← position_self (V := V), List.map_map]
      refine List.map_congr_left fun v hv => ?_
      have hm := hu _ (position_mem (List.mem_range.mp hv))
      simp only [Function.comp_apply, List.getElem?_cons_zero, Option.getD_some]
      rw [(unitOf_spec (ne_zero_of_unit hm)).1, unitOf_unit hm]
    · refine List.map_congr_left fun e he => ?_
      obtain ⟨h1, -, l, hl, h3⟩ := wf.element_face hs (k := 1) (by omega) he
      obtain ⟨a, b, rfl⟩ : ∃ a b, e = [a, b] := List.length_eq_two.mp h1
      have ha : a ∈ l := h3 (by simp)
      have hb : b ∈ l := h3 (by simp)
      have ua := hu _ (position_mem (by rw [hV]; exact wf.vertex_lt hs hl ha))
      have ub := hu _ (position_mem (by rw [hV]; exact wf.vertex_lt hs hl hb))
      have hsum := sum_ne_zero ua ub (by linarith [hd l hl a ha b hb])
      simp only [Function.comp_apply, List.getElem?_cons_zero, List.getElem?_cons_succ, Option.getD_some]
      have hh : (fun k => (position V a k + position V b k) / 2) = (1 / 2 : ℝ) • (position V a + position V b) := by
        funext k; simp; ring
      rw [hh]
      have hne2 : (1 / 2 : ℝ) • (position V a + position V b) ≠ 0 :=
        smul_ne_zero (by norm_num) hsum
      rw [(unitOf_spec hne2).1]
      congr 1
      funext k
      have hdot : dot ((1 / 2 : ℝ) • (position V a + position V b)) ((1 / 2 : ℝ) • (position V a + position V b)) =
          (1 / 2) ^ 2 * dot (position V a + position V b) (position V a + position V b) := by
        simp only [dot, Finset.mul_sum]
        exact Finset.sum_congr rfl fun i _ => by simp; ring
      unfold unitOf
      rw [hdot, Real.sqrt_mul (by norm_num), Real.sqrt_sq (by norm_num)]
      simp only [Pi.smul_apply, smul_eq_mul]
      rw [mul_div_mul_left _ _ (by norm_num)]
  unfold sphericalLoop sphericalPositions
  simp only [hL, bind, Except.bind]
  rw [hpos]
  unfold withoutNan
  rw [mapM_id_some, ht']

theorem loop_position_old (hV : V.length = t.nElements 0) {v : Nat} (hv : v < t.nElements 0) :
    position (loopVertices V t) v = position V v := by
  unfold position loopVertices
  rw [List.getElem?_append_left (by omega)]

theorem loop_position_mid (wf : WF 2 T t) (hs : Simplices 3 T) (hV : V.length = t.nElements 0)
    {l : List Nat} (hl : l ∈ T) {v w : Nat} (hv : v ∈ l) (hw : w ∈ l) (hne : v ≠ w) :
    position (loopVertices V t) (mid t v w) = unitOf (position V v + position V w) := by
  obtain ⟨e, he, hp⟩ := wf.edge_get hs hl hv hw hne
  have hge := WF.mid_ge t v w
  unfold loopVertices
  rw [position, List.getElem?_append_right (by omega), List.getElem?_map, hV, he, Option.map_some, Option.getD_some]
  obtain ⟨a, b, rfl⟩ : ∃ a b, e = [a, b] := List.length_eq_two.mp hp.length_eq
  simp only [List.getElem?_cons_zero, List.getElem?_cons_succ, Option.getD_some]
  rcases perm_pair.mp hp with ⟨rfl, rfl⟩ | ⟨rfl, rfl⟩
  · rfl
  · rw [add_comm]

end Verif
