/-
C88: meshes that meet the hypotheses, and a mesh on which the weighted averages are not linear.
-/
import Verif.Props.WeightedSample
import Verif.Props.FundamentalInstances

set_option linter.unusedSectionVars false

namespace Verif.Props

open Verif Verif.Model Verif.Spec

section

variable {D : Nat} {uniq : List (List Nat) → List (List Nat)}
  {eigh : (n : Nat) → Matrix (Fin n) (Fin n) ℝ → Eigh n ℝ} {ratio : ℝ}
  {simplices : List (List Nat)} {t : Topo} {V : List (Vec ℝ D)}
  {y : Finset Nat → Nat → ℝ} {ctr : Finset Nat → Fin D → ℝ}

/-- the center of an edge without weights is its midpoint -/
theorem power_mid {a b : Nat} (hab : a ≠ b) (hne : position V a ≠ position V b) {z : Nat → ℝ} {c : Fin D → ℝ}
    (h : PowerCoords V (weightAt none) {a, b} z c) :
    z a = 1 / 2 ∧ z b = 1 / 2 ∧ ∀ j, c j = (position V a j + position V b j) / 2 := by
  obtain ⟨c1, c2⟩ := center_edge hab hne h
  have hone := h.one
  have hpt := h.point
  rw [Finset.sum_pair hab] at hone
  have hd : dist2 (position V a) (position V b) ≠ 0 := by
    intro h0
    apply hne
    funext j
    unfold dist2 at h0
    rw [Finset.sum_eq_zero_iff_of_nonneg fun j _ => sq_nonneg _] at h0
    have := h0 j (Finset.mem_univ j)
    rw [sq_eq_zero_iff] at this
    linarith
  have q1 : dist2 (position V a) c = (z b) ^ 2 * dist2 (position V a) (position V b) := by
    unfold dist2
    rw [Finset.mul_sum]
    refine Finset.sum_congr rfl fun j _ => ?_
    rw [hpt j, Finset.sum_pair hab, show z a = 1 - z b by linarith]
    ring
  have q2 : dist2 (position V b) c = (1 - z b) ^ 2 * dist2 (position V a) (position V b) := by
    unfold dist2
    rw [Finset.mul_sum]
    refine Finset.sum_congr rfl fun j _ => ?_
    rw [hpt j, Finset.sum_pair hab, show z a = 1 - z b by linarith]
    ring
  have hb2 : z b = 1 / 2 := by
    have : (1 - 2 * z b) * dist2 (position V a) (position V b) = 0 := by
      have := c1.symm.trans q1
      have := c2.symm.trans q2
      linarith
    rcases mul_eq_zero.1 this with h | h
    · linarith
    · exact absurd h hd
  have ha2 : z a = 1 / 2 := by linarith
  refine ⟨ha2, hb2, fun j => ?_⟩
  rw [hpt j, Finset.sum_pair hab, ha2, hb2]
  ring

/-- a triangle mesh without weights is well-centered if every triangle contains its center -/
theorem wellcentered_triangles (h : CenterInput uniq eigh ratio 2 simplices t V none y ctr)
    (hy : ∀ l ∈ simplices, ∀ v ∈ l, 0 < y l.toFinset v) : isWellCentered eigh ratio t V none = .ok true := by
  obtain ⟨b, hb, hiff⟩ := C61_wellcentered h
  rw [hb]
  congr 1
  rw [hiff]
  intro S hS v hv
  have hcc := h.centers S hS
  have hs := h.rows
  obtain ⟨h0, l, hl, hsub⟩ := hS
  have hcard : S.card ≤ 3 := by
    have := Finset.card_le_card hsub
    rw [List.toFinset_card_of_nodup (hs l hl).2, (hs l hl).1] at this
    exact this
  have hcases : S.card = 1 ∨ S.card = 2 ∨ S.card = 3 := by
    have := h0.card_pos
    omega
  rcases hcases with h1 | h1 | h1
  · obtain ⟨a, rfl⟩ := Finset.card_eq_one.1 h1
    have := hcc.one
    rw [Finset.sum_singleton] at this
    rw [Finset.mem_singleton] at hv
    rw [hv, this]
    norm_num
  · obtain ⟨a, b, hab, rfl⟩ := Finset.card_eq_two.1 h1
    have ha : a ∈ l := List.mem_toFinset.1 (hsub (by simp))
    have hb : b ∈ l := List.mem_toFinset.1 (hsub (by simp))
    have hne := position_ne h.nondegenerate hs hl ha hb hab
    obtain ⟨z1, z2, -⟩ := power_mid hab hne hcc
    rw [Finset.mem_insert, Finset.mem_singleton] at hv
    rcases hv with rfl | rfl
    · rw [z1]; norm_num
    · rw [z2]; norm_num
  · have hSl : S = l.toFinset := by
      refine Finset.eq_of_subset_of_card_le hsub ?_
      rw [List.toFinset_card_of_nodup (hs l hl).2, (hs l hl).1, h1]
    subst hSl
    exact hy l hl v (List.mem_toFinset.1 hv)

end

/-! ### a hexagon -/

/-- six acute triangles around the origin -/
def wheelCorners : List (Vec ℝ 2) := [![0, 0], ![18, 0], ![9, 12], ![-9, 12], ![-14, 0], ![-9, -12], ![9, -12]]

def wheelRows : List (List Nat) := [[0, 1, 2], [0, 2, 3], [0, 3, 4], [0, 4, 5], [0, 5, 6], [0, 6, 1]]

theorem wheel_simplices : Simplices 3 wheelRows := simplices_of_all (by decide)

theorem wheel_built : fromSimplices List.dedup 3 wheelRows = .ok (built 3 wheelRows) := by decide +kernel

theorem wheel_points : (built 3 wheelRows).elements[0]?.getD [] = [[0], [1], [2], [3], [4], [5], [6]] := by decide +kernel

theorem wheel_sides : (built 3 wheelRows).elements[1]?.getD [] =
    [[1, 2], [2, 3], [2, 0], [3, 4], [3, 0], [4, 5], [4, 0], [5, 6], [5, 0], [6, 1], [0, 1], [6, 0]] := by decide +kernel

/-- the edges on the boundary are those that do not end in the middle -/
theorem wheel_boundary (e : List Nat) (he : e ∈ (built 3 wheelRows).elements[1]?.getD []) :
    BoundaryFace wheelRows e ↔ 0 ∉ e := by
  rw [wheel_sides] at he
  constructor
  · rintro ⟨j, l, -, -, hj⟩ h0
    have key : ∀ e ∈ [[1, 2], [2, 3], [2, 0], [3, 4], [3, 0], [4, 5], [4, 0], [5, 6], [5, 0], [6, 1], [0, 1], [6, 0]], 0 ∈ e →
        ∃ a < 6, ∃ b < 6, a ≠ b ∧ IsFace e (wheelRows[a]?.getD []) ∧ IsFace e (wheelRows[b]?.getD []) := by decide +kernel
    obtain ⟨a, ha, b, hb, hab, h1, h2⟩ := key e he h0
    have e1 : ∀ a < 6, wheelRows[a]? = some (wheelRows[a]?.getD []) := by decide
    exact hab ((hj a _ (e1 a ha) h1).trans (hj b _ (e1 b hb) h2).symm)
  · intro h0
    have key : ∀ e ∈ [[1, 2], [2, 3], [2, 0], [3, 4], [3, 0], [4, 5], [4, 0], [5, 6], [5, 0], [6, 1], [0, 1], [6, 0]], 0 ∉ e →
        ∃ a < 6, IsFace e (wheelRows[a]?.getD []) ∧ ∀ b < 6, IsFace e (wheelRows[b]?.getD []) → b = a := by decide +kernel
    obtain ⟨a, ha, h1, h2⟩ := key e he h0
    have e1 : ∀ a < 6, wheelRows[a]? = some (wheelRows[a]?.getD []) := by decide
    refine ⟨a, _, e1 a ha, h1, fun b l hb hl => h2 b ?_ ?_⟩
    · simpa [wheelRows] using (List.getElem?_eq_some_iff.1 hb).1
    · rw [hb]
      exact hl

theorem wheel_nondegenerate : NonDegenerate wheelCorners 2 wheelRows := by
  intro l hl
  apply affineIndependent_of
  intro w h1 h2
  have a := h2 0
  have b := h2 1
  simp only [wheelRows, List.mem_cons, List.not_mem_nil, or_false] at hl
  rcases hl with rfl | rfl | rfl | rfl | rfl | rfl <;>
  · simp [Fin.sum_univ_three, cornersOf, position, wheelCorners] at h1 a b
    intro i
    fin_cases i <;> simp <;> linarith

/-- the center of a triangle, given by its coordinates -/
theorem triangle_center {V : List (Vec ℝ 2)} {a b c : Nat} {z : Nat → ℝ} {p : Fin 2 → ℝ} (hnd : [a, b, c].Nodup)
    (h : PowerCoords V (weightAt none) [a, b, c].toFinset z p) :
    z a + z b + z c = 1 ∧ (∀ j, p j = z a * position V a j + z b * position V b j + z c * position V c j) ∧
    (p 0 - position V a 0) ^ 2 + (p 1 - position V a 1) ^ 2 = (p 0 - position V b 0) ^ 2 + (p 1 - position V b 1) ^ 2 ∧
    (p 0 - position V a 0) ^ 2 + (p 1 - position V a 1) ^ 2 = (p 0 - position V c 0) ^ 2 + (p 1 - position V c 1) ^ 2 := by
  have h1 := h.one
  rw [List.sum_toFinset _ hnd] at h1
  refine ⟨by simpa [add_assoc] using h1, fun j => ?_, ?_, ?_⟩
  · have := h.point j
    rw [List.sum_toFinset _ hnd] at this
    simpa [add_assoc] using this
  · have := h.equal a (by simp) b (by simp)
    simpa [power, weightAt, Fin.sum_univ_two] using this
  · have := h.equal a (by simp) c (by simp)
    simpa [power, weightAt, Fin.sum_univ_two] using this

section

variable {y : Finset Nat → Nat → ℝ} {ctr : Finset Nat → Fin 2 → ℝ}

theorem wheel_triangles (h : PowerCenters wheelCorners (weightAt none) wheelRows y ctr) :
    (∀ l ∈ wheelRows, ∀ v ∈ l, 0 < y l.toFinset v) ∧
    ctr [0, 1, 2].toFinset = ![9, 21 / 8] ∧ ctr [0, 2, 3].toFinset = ![0, 75 / 8] ∧ ctr [0, 3, 4].toFinset = ![-7, 33 / 8] ∧
    ctr [0, 4, 5].toFinset = ![-7, -33 / 8] ∧ ctr [0, 5, 6].toFinset = ![0, -75 / 8] ∧ ctr [0, 6, 1].toFinset = ![9, -21 / 8] := by
  have ext2 : ∀ (u : Fin 2 → ℝ) (p q : ℝ), u 0 = p → u 1 = q → u = ![p, q] := by
    intro u p q hp hq
    funext i
    fin_cases i
    · exact hp
    · exact hq
  have key : ∀ a b c : Nat, [a, b, c] ∈ wheelRows →
      (∀ v ∈ [a, b, c], 0 < y [a, b, c].toFinset v) ∧ ctr [a, b, c].toFinset =
        if b = 1 then ![9, 21 / 8] else if b = 2 then ![0, 75 / 8] else if b = 3 then ![-7, 33 / 8] else
        if b = 4 then ![-7, -33 / 8] else if b = 5 then ![0, -75 / 8] else ![9, -21 / 8] := by
    intro a b c hl
    obtain ⟨h1, h2, h3, h4⟩ := triangle_center (wheel_simplices _ hl).2 (h [a, b, c].toFinset ⟨⟨a, by simp⟩, _, hl, fun _ h => h⟩)
    have p0 := h2 0
    have p1 := h2 1
    generalize y [a, b, c].toFinset = z at *
    generalize ctr [a, b, c].toFinset = p at *
    simp only [wheelRows, List.mem_cons, List.cons.injEq, and_true, List.not_mem_nil, or_false] at hl
    rcases hl with ⟨rfl, rfl, rfl⟩ | ⟨rfl, rfl, rfl⟩ | ⟨rfl, rfl, rfl⟩ | ⟨rfl, rfl, rfl⟩ | ⟨rfl, rfl, rfl⟩ | ⟨rfl, rfl, rfl⟩ <;>
    · simp [position, wheelCorners] at h1 h2 h3 h4 p0 p1
      simp
      constructor
      · refine ⟨?_, ?_, ?_⟩ <;> linarith
      · apply ext2 <;> linarith
  refine ⟨fun l hl v hv => ?_, ?_⟩
  · obtain ⟨a, b, c, rfl⟩ := List.length_eq_three.1 (wheel_simplices l hl).1
    exact (key a b c hl).1 v hv
  · refine ⟨(key 0 1 2 (by decide)).2, (key 0 2 3 (by decide)).2, (key 0 3 4 (by decide)).2, (key 0 4 5 (by decide)).2,
      (key 0 5 6 (by decide)).2, (key 0 6 1 (by decide)).2⟩

theorem wheel_edges (h : PowerCenters wheelCorners (weightAt none) wheelRows y ctr) :
    ctr [0].toFinset = ![0, 0] ∧ ctr [0, 1].toFinset = ![9, 0] ∧ ctr [0, 2].toFinset = ![9 / 2, 6] ∧
    ctr [0, 3].toFinset = ![-9 / 2, 6] ∧ ctr [0, 4].toFinset = ![-7, 0] ∧ ctr [0, 5].toFinset = ![-9 / 2, -6] ∧
    ctr [0, 6].toFinset = ![9 / 2, -6] := by
  have key : ∀ a, 1 ≤ a → a ≤ 6 → ctr [0, a].toFinset = fun j => (position wheelCorners 0 j + position wheelCorners a j) / 2 := by
    intro a h1 h6
    have hne : position wheelCorners 0 ≠ position wheelCorners a := by
      intro h0
      have := congrFun h0 0
      interval_cases a <;> simp [position, wheelCorners] at this
    have hf : SpansFace wheelRows [0, a].toFinset := by
      refine ⟨⟨0, by simp⟩, ?_⟩
      interval_cases a
      · exact ⟨[0, 1, 2], by decide, by decide⟩
      · exact ⟨[0, 1, 2], by decide, by decide⟩
      · exact ⟨[0, 2, 3], by decide, by decide⟩
      · exact ⟨[0, 3, 4], by decide, by decide⟩
      · exact ⟨[0, 4, 5], by decide, by decide⟩
      · exact ⟨[0, 5, 6], by decide, by decide⟩
    have hcc := h _ hf
    rw [show [0, a].toFinset = {0, a} by simp] at hcc ⊢
    exact funext (power_mid (by omega) hne hcc).2.2
  have h0 := center_point (h {0} ⟨by simp, [0, 1, 2], by decide, by decide⟩)
  refine ⟨?_, ?_, ?_, ?_, ?_, ?_, ?_⟩
  · rw [show [0].toFinset = {0} from rfl, h0]
    rfl
  all_goals
    rw [key _ (by omega) (by omega)]
    funext j
    fin_cases j <;> simp [position, wheelCorners] <;> norm_num

/-- the weight of a triangle at its first corner -/
theorem corner_weight (ctr : Finset Nat → Fin 2 → ℝ) {a b c : Nat} (hab : a ≠ b) (hac : a ≠ c) :
    cellWeight ctr 1 [a] [a, b, c] =
      distance (ctr [a, b].toFinset) (ctr [a, b, c].toFinset) /
        (distance (ctr [a].toFinset) (ctr [a, b].toFinset) * distance (ctr [a].toFinset) (ctr [a, b, c].toFinset)) +
      distance (ctr [a, c].toFinset) (ctr [a, b, c].toFinset) /
        (distance (ctr [a].toFinset) (ctr [a, c].toFinset) * distance (ctr [a].toFinset) (ctr [a, b, c].toFinset)) := by
  have hd : [a, b, c].diff [a] = [b, c] := by simp
  have hp : [b, c].permutations.Perm [[b, c], [c, b]] := by
    have := List.permutations_perm_permutations' [b, c]
    simpa [List.permutations'] using this
  have hsw : [a, c, b].toFinset = [a, b, c].toFinset := List.toFinset_eq_of_perm _ _ ((List.Perm.swap b c []).cons a)
  unfold cellWeight
  rw [hd, (hp.map _).sum_eq]
  simp only [List.map_cons, List.map_nil, List.sum_cons, List.sum_nil, add_zero]
  unfold wayWeight
  simp only [List.range_one, List.range_succ, List.range_zero, List.nil_append, List.map_cons, List.map_nil, List.prod_cons, List.prod_nil,
    mul_one, List.take_succ_cons, List.take_zero, List.cons_append, zero_add, List.map_append, List.prod_append, hsw]

theorem distance_eq {a b c d r : ℝ} (hr : 0 ≤ r) (h : (a - c) ^ 2 + (b - d) ^ 2 = r ^ 2) :
    distance ![a, b] ![c, d] = r := by
  unfold distance
  rw [show dist2 ![a, b] ![c, d] = r ^ 2 by rw [← h]; simp [dist2, Fin.sum_univ_two], Real.sqrt_sq hr]

theorem wheel_weights (h : PowerCenters wheelCorners (weightAt none) wheelRows y ctr) :
    cellWeight ctr 1 [0] [0, 1, 2] = 1 / 9 ∧ cellWeight ctr 1 [0] [0, 2, 3] = 4 / 25 ∧ cellWeight ctr 1 [0] [0, 3, 4] = 13 / 105 ∧
    cellWeight ctr 1 [0] [0, 4, 5] = 13 / 105 ∧ cellWeight ctr 1 [0] [0, 5, 6] = 4 / 25 ∧ cellWeight ctr 1 [0] [0, 6, 1] = 1 / 9 := by
  obtain ⟨-, t1, t2, t3, t4, t5, t6⟩ := wheel_triangles h
  obtain ⟨e0, e1, e2, e3, e4, e5, e6⟩ := wheel_edges h
  refine ⟨?_, ?_, ?_, ?_, ?_, ?_⟩
  · rw [corner_weight ctr (by decide) (by decide), t1, e0, e1, e2, distance_eq (r := 21 / 8), distance_eq (r := 9),
      distance_eq (r := 75 / 8), distance_eq (r := 45 / 8), distance_eq (r := 15 / 2)] <;> norm_num
  · rw [corner_weight ctr (by decide) (by decide), t2, e0, e2, e3, distance_eq (r := 45 / 8), distance_eq (r := 15 / 2),
      distance_eq (r := 75 / 8), distance_eq (r := 45 / 8), distance_eq (r := 15 / 2)] <;> norm_num
  · rw [corner_weight ctr (by decide) (by decide), t3, e0, e3, e4, distance_eq (r := 25 / 8), distance_eq (r := 15 / 2),
      distance_eq (r := 65 / 8), distance_eq (r := 33 / 8), distance_eq (r := 7)] <;> norm_num
  · rw [corner_weight ctr (by decide) (by decide), t4, e0, e4, e5, distance_eq (r := 33 / 8), distance_eq (r := 7),
      distance_eq (r := 65 / 8), distance_eq (r := 25 / 8), distance_eq (r := 15 / 2)] <;> norm_num
  · rw [corner_weight ctr (by decide) (by decide), t5, e0, e5, e6, distance_eq (r := 45 / 8), distance_eq (r := 15 / 2),
      distance_eq (r := 75 / 8), distance_eq (r := 45 / 8), distance_eq (r := 15 / 2)] <;> norm_num
  · rw [corner_weight ctr (by decide) (by decide), t6, e0, e6, e1, distance_eq (r := 45 / 8), distance_eq (r := 15 / 2),
      distance_eq (r := 75 / 8), distance_eq (r := 21 / 8), distance_eq (r := 9)] <;> norm_num

end

/-- the hexagon meets the hypotheses of `C88_open` -/
theorem C88_open_case {solve : List (List Int) → Option (List Int)} (hsat : SatSpec solve) :
    ∃ eigh ratio y ctr s ms, CenterInput List.dedup eigh ratio 2 wheelRows (built 3 wheelRows) wheelCorners none y ctr ∧
    AtMostTwo wheelRows ∧ boundary solve List.dedup (built 3 wheelRows) = .ok (some s) ∧
    simplicialDual solve List.dedup (built 3 wheelRows) = .ok ms ∧ InOrder s.parentIdx ∧
    isWellCentered eigh ratio (built 3 wheelRows) wheelCorners none = .ok true := by
  obtain ⟨eigh, ratio, y, ctr, h⟩ := C61_applies (V := wheelCorners) (W := none) uniqSpec_dedup wheel_simplices wheel_built
    (by decide) (by simp [wheelRows, wheelCorners]) (by simp) wheel_nondegenerate
  have hm : AtMostTwo wheelRows := atMostTwo_of_check (by decide +kernel)
  have hcon : Connected wheelRows := by
    refine connected_of_chain fun j hj => ?_
    have hj : j < 5 := by simp [wheelRows] at hj; omega
    interval_cases j
    · exact ⟨[0, 2], sharedFace_of_check (by decide +kernel)⟩
    · exact ⟨[0, 3], sharedFace_of_check (by decide +kernel)⟩
    · exact ⟨[0, 4], sharedFace_of_check (by decide +kernel)⟩
    · exact ⟨[0, 5], sharedFace_of_check (by decide +kernel)⟩
    · exact ⟨[0, 6], sharedFace_of_check (by decide +kernel)⟩
  have hco : Coherent wheelRows := by
    rw [← reorient_false wheelRows, ← (wf_built wheel_simplices wheel_built).satisfies_iff_coherent wheel_simplices (fun _ => false)]
    decide +kernel
  have hor : isOriented solve (built 3 wheelRows) = .ok true :=
    (C08_connected_exact uniqSpec_dedup wheel_simplices hsat wheel_built (by decide) hcon).2 hco
  obtain ⟨s, hb, hcons⟩ : ∃ s, boundary solve List.dedup (built 3 wheelRows) = .ok (some s) ∧
      s.topo.elements[1]?.getD [] = [[0, 1], [1, 2], [2, 3], [3, 4], [4, 5], [5, 0]] := by
    rw [boundary_eq hor]
    exact ⟨(subTopology List.dedup (built 3 wheelRows).boundary.length (built 3 wheelRows)
      (bRows (built 3 wheelRows))).toOption.getD ⟨⟨[], [], []⟩, []⟩, by decide +kernel, by decide +kernel⟩
  have hord := C83_in_order_triangles uniqSpec_dedup wheel_simplices wheel_built hb
  obtain ⟨ms, hms⟩ := C83_exists (n := 0) uniqSpec_dedup wheel_simplices hsat wheel_built hm hb (by
    rw [hcons]
    refine connected_of_chain fun j hj => ?_
    have hj : j < 5 := by simp at hj; omega
    interval_cases j
    · exact ⟨[1], sharedFace_of_check (by decide +kernel)⟩
    · exact ⟨[2], sharedFace_of_check (by decide +kernel)⟩
    · exact ⟨[3], sharedFace_of_check (by decide +kernel)⟩
    · exact ⟨[4], sharedFace_of_check (by decide +kernel)⟩
    · exact ⟨[5], sharedFace_of_check (by decide +kernel)⟩) hord
  exact ⟨eigh, ratio, y, ctr, s, ms, h, hm, hb, hms, hord, wellcentered_triangles h (wheel_triangles h.centers).1⟩

/-- C88 fails for linear functions at vertices: in the hexagon the vertex at the origin is inside, every triangle has the first
coordinate of its center as its value, whatever the values on the boundary are, and the average at the origin is not zero -/
theorem C88_vertex_not_linear {solve : List (List Int) → Option (List Int)} (hsat : SatSpec solve) :
    ∃ eigh ratio y ctr, CenterInput List.dedup eigh ratio 2 wheelRows (built 3 wheelRows) wheelCorners none y ctr ∧
    isWellCentered eigh ratio (built 3 wheelRows) wheelCorners none = .ok true ∧ position wheelCorners 0 = ![0, 0] ∧
    (∀ e ∈ (built 3 wheelRows).elements[1]?.getD [], BoundaryFace wheelRows e → 0 ∉ e) ∧
    ∀ z : List ℝ, z.length = 6 → ∃ out o, averageWeighted solve List.dedup eigh ratio (built 3 wheelRows) wheelCorners none
      ((wheelRows.map fun l => ctr l.toFinset 0) ++ z) = .ok out ∧ out[2]? = some o ∧ o[0]? = some (105 / 311) := by
  obtain ⟨eigh, ratio, y, ctr, s, ms, h, hm, hb, hms, hord, hwc⟩ := C88_open_case hsat
  refine ⟨eigh, ratio, y, ctr, h, hwc, rfl, fun e he => (wheel_boundary e he).1, fun z hz => ?_⟩
  obtain ⟨F, f1, f2, f3⟩ := C88_open (m := 0) h (le_refl 2) hsat hm hb hms hord hwc
  have hF : F.length = 6 := by
    have hnd : ((built 3 wheelRows).elements[1]?.getD []).Nodup := by rw [wheel_sides]; decide
    have hp : F.Perm (((built 3 wheelRows).elements[1]?.getD []).filter fun e => 0 ∉ e) := by
      rw [List.perm_ext_iff_of_nodup (f1.nodup hnd) (hnd.filter _)]
      intro e
      rw [List.mem_filter, decide_eq_true_eq]
      exact ⟨fun he => ⟨f1.subset he, (wheel_boundary e (f1.subset he)).1 ((f2 e (f1.subset he)).1 he)⟩,
        fun he => (f2 e he.1).2 ((wheel_boundary e he.1).2 he.2)⟩
    rw [hp.length_eq, wheel_sides]
    decide
  obtain ⟨out, o1, o2, o3, o4⟩ := (f3 ((wheelRows.map fun l => ctr l.toFinset 0) ++ z)).1 (by
    rw [List.length_append, List.length_map, hz, hF])
  refine ⟨out, _, o1, o4 1 0 rfl (by omega), ?_⟩
  rw [wheel_points]
  simp only [List.map_cons, List.cons_append, List.getElem?_cons_zero]
  congr 1
  obtain ⟨w1, w2, w3, w4, w5, w6⟩ := wheel_weights h.centers
  obtain ⟨-, t1, t2, t3, t4, t5, t6⟩ := wheel_triangles h.centers
  unfold cellMean
  rw [show Spec.incident wheelRows [0] = [0, 1, 2, 3, 4, 5] by decide]
  simp only [wheelRows, List.map_cons, List.map_nil, List.sum_cons, List.sum_nil, List.getElem?_cons_zero, List.getElem?_cons_succ,
    Option.getD_some, List.cons_append, w1, w2, w3, w4, w5, w6, t1, t2, t3, t4, t5, t6]
  norm_num

/-- the triangle of C87 meets the hypotheses of `C88_sample` -/
theorem C88_sample_case {solve : List (List Int) → Option (List Int)} (hsat : SatSpec solve) :
    ∃ eigh ratio minres nearest y ctr w y' ctr' s ms,
    SubInput List.dedup eigh ratio 2 [[0, 1, 2]] (built 3 [[0, 1, 2]]) (tentCorners (7 / 4)) none y ctr
      tentRows (built 3 tentRows) (tentVertices (7 / 4)) w y' ctr' ∧
    PickInput (m := 0) solve List.dedup eigh ratio minres nearest tentRows (built 3 tentRows) (tentVertices (7 / 4))
      (some w) y' ctr' ∧
    isWellCentered eigh ratio (built 3 [[0, 1, 2]]) (tentCorners (7 / 4)) none = .ok true ∧
    AtMostTwo [[0, 1, 2]] ∧ boundary solve List.dedup (built 3 [[0, 1, 2]]) = .ok (some s) ∧
    simplicialDual solve List.dedup (built 3 [[0, 1, 2]]) = .ok ms ∧ InOrder s.parentIdx := by
  obtain ⟨eigh, ratio, minres, nearest, y, ctr, w, y', ctr', s, ms, h1, h2, -, -, -, h3, h4, h5, h6⟩ := C87_case hsat
  refine ⟨eigh, ratio, minres, nearest, y, ctr, w, y', ctr', s, ms, h1, h2, wellcentered_triangles h1.parent ?_, h3, h4, h5, h6⟩
  intro l hl v hv
  rw [List.mem_singleton] at hl
  subst hl
  obtain ⟨a1, a2, a3, a4⟩ := triangle_center (by decide) (h1.parent.centers [0, 1, 2].toFinset ⟨⟨0, by simp⟩, _, by simp, fun _ h => h⟩)
  have p0 := a2 0
  have p1 := a2 1
  generalize y [0, 1, 2].toFinset = z at *
  generalize ctr [0, 1, 2].toFinset = p at *
  simp [position, tentCorners] at a1 a3 a4 p0 p1
  simp only [List.mem_cons, List.not_mem_nil, or_false] at hv
  rcases hv with rfl | rfl | rfl <;> linarith

/-- an edge of the hexagon meets the hypotheses of `C88_edge_linear` -/
theorem C88_edge_linear_case {y : Finset Nat → Nat → ℝ} {ctr : Finset Nat → Fin 2 → ℝ}
    (h : PowerCenters wheelCorners (weightAt none) wheelRows y ctr) :
    [2, 0] ∈ (built 3 wheelRows).elements[1]?.getD [] ∧ Spec.incident wheelRows [2, 0] = [0, 1] ∧
    ∀ c, ctr [2, 0].toFinset c = (1 - 1 / 2) * ctr (wheelRows[0]?.getD []).toFinset c +
      1 / 2 * ctr (wheelRows[1]?.getD []).toFinset c := by
  obtain ⟨-, t1, t2, -⟩ := wheel_triangles h
  obtain ⟨-, -, e2, -⟩ := wheel_edges h
  refine ⟨by rw [wheel_sides]; decide, by decide, fun c => ?_⟩
  rw [show [2, 0].toFinset = [0, 2].toFinset from List.toFinset_eq_of_perm _ _ (List.Perm.swap 0 2 []), e2]
  show _ = (1 - 1 / 2) * ctr [0, 1, 2].toFinset c + 1 / 2 * ctr [0, 2, 3].toFinset c
  rw [t1, t2]
  fin_cases c <;> simp <;> norm_num

/-! ### the surface of a tetrahedron -/

def shellCorners : List (Vec ℝ 3) := [![1, 1, 1], ![1, -1, -1], ![-1, 1, -1], ![-1, -1, 1]]

def shellRows : List (List Nat) := [[0, 1, 2], [0, 3, 1], [0, 2, 3], [1, 3, 2]]

theorem shell_nondegenerate : NonDegenerate shellCorners 2 shellRows := by
  intro l hl
  apply affineIndependent_of
  intro w h1 h2
  have a := h2 0
  have b := h2 1
  have c := h2 2
  simp only [shellRows, List.mem_cons, List.not_mem_nil, or_false] at hl
  rcases hl with rfl | rfl | rfl | rfl <;>
  · simp [Fin.sum_univ_three, cornersOf, position, shellCorners] at h1 a b c
    intro i
    fin_cases i <;> simp <;> linarith

/-- the surface of a regular tetrahedron meets the hypotheses of `C88_closed` -/
theorem C88_closed_case {solve : List (List Int) → Option (List Int)} (hsat : SatSpec solve) :
    ∃ eigh ratio y ctr, CenterInput List.dedup eigh ratio 2 shellRows (built 3 shellRows) shellCorners none y ctr ∧
    boundary solve List.dedup (built 3 shellRows) = .ok none ∧
    isWellCentered eigh ratio (built 3 shellRows) shellCorners none = .ok true := by
  have hs : Simplices 3 shellRows := simplices_of_all (by decide)
  have hf : fromSimplices List.dedup 3 shellRows = .ok (built 3 shellRows) := by decide +kernel
  obtain ⟨eigh, ratio, y, ctr, h⟩ := C61_applies (V := shellCorners) (W := none) uniqSpec_dedup hs hf
    (by decide) (by simp [shellRows, shellCorners]) (by simp) shell_nondegenerate
  have hcon : Connected shellRows := by
    refine connected_of_chain fun j hj => ?_
    have hj : j < 3 := by simp [shellRows] at hj; omega
    interval_cases j
    · exact ⟨[0, 1], sharedFace_of_check (by decide +kernel)⟩
    · exact ⟨[0, 3], sharedFace_of_check (by decide +kernel)⟩
    · exact ⟨[2, 3], sharedFace_of_check (by decide +kernel)⟩
  have hco : Coherent shellRows := by
    rw [← reorient_false shellRows, ← (wf_built hs hf).satisfies_iff_coherent hs (fun _ => false)]
    decide +kernel
  have hor : isOriented solve (built 3 shellRows) = .ok true :=
    (C08_connected_exact uniqSpec_dedup hs hsat hf (by decide) hcon).2 hco
  refine ⟨eigh, ratio, y, ctr, h, ?_, wellcentered_triangles h ?_⟩
  · rw [boundary_eq hor]
    decide +kernel
  · intro l hl v hv
    obtain ⟨a, b, c, rfl⟩ := List.length_eq_three.1 (hs l hl).1
    have hcc := h.centers [a, b, c].toFinset ⟨⟨a, by simp⟩, _, hl, fun _ h => h⟩
    have h1 := hcc.one
    have p0 := hcc.point 0
    have p1 := hcc.point 1
    have p2 := hcc.point 2
    have q1 := hcc.equal a (by simp) b (by simp)
    have q2 := hcc.equal a (by simp) c (by simp)
    rw [List.sum_toFinset _ (hs _ hl).2] at h1 p0 p1 p2
    generalize y [a, b, c].toFinset = z at *
    generalize ctr [a, b, c].toFinset = p at *
    simp only [shellRows, List.mem_cons, List.cons.injEq, and_true, List.not_mem_nil, or_false] at hl
    simp only [List.mem_cons, List.not_mem_nil, or_false] at hv
    rcases hl with ⟨rfl, rfl, rfl⟩ | ⟨rfl, rfl, rfl⟩ | ⟨rfl, rfl, rfl⟩ | ⟨rfl, rfl, rfl⟩ <;>
    · simp [position, shellCorners, power, weightAt, Fin.sum_univ_three] at h1 p0 p1 p2 q1 q2
      rcases hv with rfl | rfl | rfl <;> linarith

end Verif.Props
