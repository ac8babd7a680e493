/-
C90, C91: the positions of dual elements, and of the vertices of `n_cube_dual`.
-/
import Verif.Model.DualPosition
import Verif.Props.CubeDual
import Verif.Props.CubicalComplex
import Verif.Lemmas.CircleStart
import Verif.Props.Dual

set_option linter.unusedSectionVars false

namespace Verif.Props

open Verif.Model Verif.Spec

variable {uniq : List (List Nat) → List (List Nat)} {solve : List (List Int) → Option (List Int)} {n m : Nat}
  {F : List (List Nat)} {bit : Nat → Nat → Bool} {axis : Nat → Nat} {sd : Nat → Bool} {facet : Nat → Bool → Nat} {l : List Nat}

/-! ### the ridges of a cube -/

theorem cubeAt_side {k a : Nat} {s : Bool} (ha : a ≤ k) {b : List Bool} (hb : b.length = k) :
    cubeAt (side k a s l) b = cubeAt l (b.insertIdx a s) := by
  rw [side_eq ha, sliceAxis, cubeAt_cubeOf _ hb]

/-- the place of axis `i` of a side along axis `a` among the axes of the cube -/
def liftAxis (a i : Nat) : Nat := if i < a then i else i + 1

theorem getElem?_insertIdx_lift {a i : Nat} {s : Bool} {b : List Bool} (ha : a ≤ b.length) :
    (b.insertIdx a s)[liftAxis a i]? = b[i]? := by
  unfold liftAxis
  split
  · next h => rw [List.getElem?_insertIdx_of_lt h]
  · next h => rw [List.getElem?_insertIdx_of_gt (by omega), Nat.add_sub_cancel]

theorem mem_side_side {a i v : Nat} {s s' : Bool} (ha : a ≤ m + 1) :
    v ∈ side m i s' (side (m + 1) a s l) ↔
      ∃ b : List Bool, b.length = m + 2 ∧ b[a]? = some s ∧ b[liftAxis a i]? = some s' ∧ cubeAt l b = v := by
  rw [mem_side]
  constructor
  · rintro ⟨b, hb, hi, rfl⟩
    refine ⟨b.insertIdx a s, ?_, ?_, ?_, (cubeAt_side ha hb).symm⟩
    · rw [List.length_insertIdx_of_le_length (by omega)]; omega
    · rw [List.getElem?_insertIdx_self]; simp; omega
    · rw [getElem?_insertIdx_lift (by omega)]; exact hi
  · rintro ⟨b, hb, h1, h2, rfl⟩
    obtain ⟨hlt, he⟩ := List.getElem?_eq_some_iff.1 h1
    have hins : (b.eraseIdx a).insertIdx a s = b := by
      rw [← he]; exact List.insertIdx_eraseIdx_getElem hlt
    have hl : (b.eraseIdx a).length = m + 1 := by rw [List.length_eraseIdx_of_lt hlt]; omega
    refine ⟨b.eraseIdx a, hl, ?_, ?_⟩
    · rw [← h2, ← getElem?_insertIdx_lift (s := s) (a := a) (i := i) (b := b.eraseIdx a) (by omega), hins]
    · rw [cubeAt_side ha hl, hins]

/-- the sides of a facet are the ridges -/
theorem side_facet (H : Facets (m + 2) F bit axis sd facet) (hF : Cubes (m + 1) F) (hc : Cubes (m + 2) [l])
    (hv : ∀ v, v ∈ l ↔ v < 2 ^ (m + 2)) (hbit : ∀ b : List Bool, b.length = m + 2 → ∀ a, bit (cubeAt l b) a = b[a]?.getD false)
    (hsym : ∀ (j : Nat) (f : List Nat), F[j]? = some f → ∃ σ, SymmetricCube (m + 1) f (side (m + 1) (axis j) (sd j) l) σ)
    {j : Nat} {f e : List Nat} (hj : F[j]? = some f) :
    IsCubeSide m e f ↔ e.Nodup ∧ ∃ a' < m + 2, a' ≠ axis j ∧ ∃ s', ∀ v, v ∈ e ↔
      v < 2 ^ (m + 2) ∧ bit v (axis j) = sd j ∧ bit v a' = s' := by
  obtain ⟨σ, hσ⟩ := hsym j f hj
  have hf := hF f (List.mem_of_getElem? hj)
  have hax : axis j ≤ m + 1 := by
    have := H.axis_lt j (List.getElem?_eq_some_iff.1 hj).1
    omega
  obtain ⟨hlen, hnd⟩ := hc l (List.mem_singleton_self l)
  have hsl := side_length hax (sd j) l
  have hsn := side_nodup hax (sd j) hlen hnd
  -- the vertices of a side of a side
  have key : ∀ i ≤ m, ∀ s' v, v ∈ side m i s' (side (m + 1) (axis j) (sd j) l) ↔
      v < 2 ^ (m + 2) ∧ bit v (axis j) = sd j ∧ bit v (liftAxis (axis j) i) = s' := by
    intro i hi s' v
    have hli : liftAxis (axis j) i < m + 2 := by unfold liftAxis; split <;> omega
    rw [mem_side_side hax]
    constructor
    · rintro ⟨b, hb, h1, h2, rfl⟩
      exact ⟨(hv _).1 (cubeAt_mem hlen hb), by rw [hbit b hb, h1]; rfl, by rw [hbit b hb, h2]; rfl⟩
    · rintro ⟨hlt, h1, h2⟩
      have := (hv v).2 hlt
      rw [← cubeOf_self hlen] at this
      obtain ⟨b, hb, rfl⟩ := List.mem_map.1 this
      have hb := mem_cubeIndices.1 hb
      rw [hbit b hb] at h1 h2
      refine ⟨b, hb, ?_, ?_, rfl⟩
      · rw [List.getElem?_eq_getElem (by omega)] at h1 ⊢
        exact congrArg some h1
      · rw [List.getElem?_eq_getElem (by omega)] at h2 ⊢
        exact congrArg some h2
  constructor
  · rintro ⟨i, hi, s, hp⟩
    obtain ⟨f', ⟨i', hi', s', hf'⟩, τ, hτ⟩ := IsCubeFace.symmetric (d := 1) (k := m) hsl hsn
      (hσ.symm hf.1 hf.2) (⟨i, hi, s, rfl⟩ : IsCubeFace 1 m f (side m i s f))
    have hf' : f' = side m i' s' (side (m + 1) (axis j) (sd j) l) := hf'
    have hi' : i' ≤ m := hi'
    have hp' : e.Perm (side m i' s' (side (m + 1) (axis j) (sd j) l)) := by
      have h1 := hτ.perm (by rw [hf']; exact side_length hi' _ _)
      rw [hf'] at h1
      exact hp.trans h1
    refine ⟨hp'.nodup_iff.2 (side_nodup hi' s' hsl hsn), liftAxis (axis j) i', ?_, ?_, s', fun v => ?_⟩
    · unfold liftAxis; split <;> omega
    · unfold liftAxis; split <;> omega
    · rw [hp'.mem_iff, key i' hi']
  · rintro ⟨hen, a', ha', hne, s', he⟩
    obtain ⟨i, hi, rfl⟩ : ∃ i ≤ m, liftAxis (axis j) i = a' := by
      rcases Nat.lt_or_gt_of_ne hne with h | h
      · exact ⟨a', by omega, if_pos h⟩
      · exact ⟨a' - 1, by omega, by unfold liftAxis; rw [if_neg (by omega)]; omega⟩
    have hp : e.Perm (side m i s' (side (m + 1) (axis j) (sd j) l)) :=
      (List.perm_ext_iff_of_nodup hen (side_nodup hi s' hsl hsn)).2 fun v => by rw [he, key i hi]
    obtain ⟨f', ⟨i', hi', s'', hf'⟩, τ, hτ⟩ := IsCubeFace.symmetric (d := 1) (k := m) hf.1 hf.2 hσ
      (⟨i, hi, s', rfl⟩ : IsCubeFace 1 m (side (m + 1) (axis j) (sd j) l) _)
    have hf' : f' = side m i' s'' f := hf'
    have hi' : i' ≤ m := hi'
    have h1 := hτ.perm (by rw [hf']; exact side_length hi' _ _)
    exact ⟨i', hi', s'', by rw [hf'] at h1; exact hp.trans h1⟩

/-- the facets of a cube are connected -/
theorem facets_connected (H : Facets (m + 2) F bit axis sd facet) (hF : Cubes (m + 1) F) (hc : Cubes (m + 2) [l])
    (hv : ∀ v, v ∈ l ↔ v < 2 ^ (m + 2)) (hbit : ∀ b : List Bool, b.length = m + 2 → ∀ a, bit (cubeAt l b) a = b[a]?.getD false)
    (hsym : ∀ (j : Nat) (f : List Nat), F[j]? = some f → ∃ σ, SymmetricCube (m + 1) f (side (m + 1) (axis j) (sd j) l) σ) :
    CubesConnected m F := by
  have step : ∀ j1 < F.length, ∀ j2 < F.length, axis j1 ≠ axis j2 → ∃ e, SharedSide m F e j1 j2 := by
    intro j1 h1 j2 h2 hne
    have hen : ((List.range (2 ^ (m + 2))).filter fun v => bit v (axis j1) == sd j1 && bit v (axis j2) == sd j2).Nodup :=
      List.nodup_range.filter _
    have hmem : ∀ v, v ∈ ((List.range (2 ^ (m + 2))).filter fun v => bit v (axis j1) == sd j1 && bit v (axis j2) == sd j2) ↔
        v < 2 ^ (m + 2) ∧ bit v (axis j1) = sd j1 ∧ bit v (axis j2) = sd j2 := by
      intro v
      rw [List.mem_filter, List.mem_range]
      simp
    generalize ((List.range (2 ^ (m + 2))).filter fun v => bit v (axis j1) == sd j1 && bit v (axis j2) == sd j2) = e at hen hmem
    refine ⟨e, fun h => hne (by rw [h]), h1, h2, fun j f hj => ?_⟩
    have hjl := (List.getElem?_eq_some_iff.1 hj).1
    rw [side_facet H hF hc hv hbit hsym hj]
    constructor
    · rintro ⟨-, a', ha', hne', s', he⟩
      have hsame : ∀ v < 2 ^ (m + 2), bit v (axis j1) = sd j1 → bit v (axis j2) = sd j2 → bit v (axis j) = sd j := by
        intro v hlt b1 b2
        exact ((he v).1 ((hmem v).2 ⟨hlt, b1, b2⟩)).2.1
      have hidx : ∀ i < F.length, axis j = axis i → sd j = sd i → j = i := by
        intro i hi e1 e2
        rw [← H.facet_axis j hjl, e1, e2, H.facet_axis i hi]
      obtain ⟨v, hlt, hvb⟩ := H.surj fun a => if a = axis j1 then sd j1 else if a = axis j2 then sd j2 else !sd j
      have b1 : bit v (axis j1) = sd j1 := by rw [hvb _ (H.axis_lt j1 h1), if_pos rfl]
      have b2 : bit v (axis j2) = sd j2 := by rw [hvb _ (H.axis_lt j2 h2), if_neg (Ne.symm hne), if_pos rfl]
      have b3 := hsame v hlt b1 b2
      by_cases e1 : axis j = axis j1
      · exact .inl (hidx j1 h1 e1 (by rw [← b3, e1, b1]))
      · by_cases e2 : axis j = axis j2
        · exact .inr (hidx j2 h2 e2 (by rw [← b3, e2, b2]))
        · rw [hvb _ (H.axis_lt j hjl), if_neg e1, if_neg e2] at b3
          cases sd j <;> simp at b3
    · rintro (rfl | rfl)
      · exact ⟨hen, axis j2, H.axis_lt j2 h2, Ne.symm hne, sd j2, hmem⟩
      · exact ⟨hen, axis j1, H.axis_lt j1 h1, hne, sd j1, fun v => by rw [hmem v, and_comm (a := bit v (axis j1) = sd j1)]⟩
  intro j1 h1 j2 h2
  by_cases hne : axis j1 = axis j2
  · have ha : ∃ a < m + 2, a ≠ axis j1 := by
      by_cases h0 : axis j1 = 0
      · exact ⟨1, by omega, by omega⟩
      · exact ⟨0, by omega, fun h => h0 h.symm⟩
    obtain ⟨a, ha, hna⟩ := ha
    have hlt := H.facet_lt a ha false
    have hax := H.axis_facet a ha false
    exact .head (step j1 h1 _ hlt (by rw [hax]; exact hna.symm))
      (.single (step _ hlt j2 h2 (by rw [hax, ← hne]; exact hna)))
  · exact .single (step j1 h1 j2 h2 hne)

/-! ### the middles of the facets -/

theorem sum_cubeIndices_sign : ∀ {k i : Nat}, i < k →
    ((cubeIndices k).map fun b => if b[i]?.getD false then (1 / 2 : ℝ) else -(1 / 2)).sum = 0
  | 0, i, h => by omega
  | k + 1, 0, _ => by
    simp only [cubeIndices, List.map_append, List.map_map, List.sum_append, Function.comp_def, List.getElem?_cons_zero,
      Option.getD_some]
    simp [cubeIndices_length]
  | k + 1, i + 1, h => by
    simp only [cubeIndices, List.map_append, List.map_map, List.sum_append, Function.comp_def, List.getElem?_cons_succ]
    rw [sum_cubeIndices_sign (by omega), add_zero]

/-- the corners of the centered cube -/
theorem cube_vertex (hl : gridCubes (List.replicate n 1) = [l]) {b : List Bool} (hb : b.length = n) (q : Fin n) :
    ∃ r, (gridVertices (K := ℝ) (List.replicate n 1) true)[cubeAt l b]? = some r ∧
      r[q.val]?.getD 0 = if b[q.val]?.getD false then 1 / 2 else -(1 / 2) := by
  obtain ⟨c, hc, hpos⟩ := C22_corners (K := ℝ) (shape := List.replicate n 1) 0 l (by rw [hl]; rfl)
  have h := C22_centering _ _ (hpos b (by simpa using hb))
  refine ⟨_, h, ?_⟩
  have hcl : c.length = n := by simpa using hc.length_eq
  have hq := q.isLt
  have hc0 : c[q.val]'(by omega) = 0 := by
    have := List.Forall₂.get hc (i := q.val) (by omega) (by simpa using hq)
    simpa using this
  have hbq : b[q.val]? = some (b[q.val]'(by omega)) := List.getElem?_eq_getElem (by omega)
  rw [List.getElem?_zipWith, List.getElem?_map, cellCorner, List.getElem?_zipWith, List.getElem?_eq_getElem (l := c) (by omega), hbq, hc0,
    List.getElem?_replicate, if_pos hq]
  simp only [Option.map_some, Option.getD_some]
  cases b[q.val]'(by omega) <;> norm_num

/-- the middle of a facet -/
theorem facet_mean {V : List (Vec ℝ (m + 2))} (hc : Cubes (m + 2) [l]) {a : Nat} (ha : a ≤ m + 1) {s : Bool} {f : List Nat}
    (hV : ∀ b : List Bool, b.length = m + 2 → ∃ x, V[cubeAt l b]? = some x ∧
      ∀ q : Fin (m + 2), x q = if b[q.val]?.getD false then 1 / 2 else -(1 / 2))
    (hp : f.Perm (side (m + 1) a s l)) :
    cubeMean V f = .ok fun q => axisPoint (m + 2) a s q / 2 := by
  have hpos : ∀ b : List Bool, b.length = m + 2 → cubeAt l b < V.length ∧
      ∀ q : Fin (m + 2), (V[cubeAt l b]?.getD 0) q = if b[q.val]?.getD false then 1 / 2 else -(1 / 2) := by
    intro b hb
    obtain ⟨x, hx, hq⟩ := hV b hb
    exact ⟨(List.getElem?_eq_some_iff.1 hx).1, by rw [hx]; exact hq⟩
  rw [cubeMean_ok]
  · congr 1
    funext q
    rw [(hp.map fun v => (V[v]?.getD 0) q).sum_eq, hp.length_eq, side_length ha, side_eq ha, sliceAxis, cubeOf, List.map_map]
    have hcongr : ((cubeIndices (m + 1)).map ((fun v => (V[v]?.getD 0) q) ∘ fun b => cubeAt l (b.insertIdx a s))) =
        (cubeIndices (m + 1)).map fun b => if (b.insertIdx a s)[q.val]?.getD false then (1 / 2 : ℝ) else -(1 / 2) := by
      refine List.map_congr_left fun b hb => ?_
      have hb := mem_cubeIndices.1 hb
      exact (hpos _ (by rw [List.length_insertIdx_of_le_length (by omega)]; omega)).2 q
    rw [hcongr]
    by_cases hq : q.val = a
    · have hc' : ((cubeIndices (m + 1)).map fun b => if (b.insertIdx a s)[q.val]?.getD false then (1 / 2 : ℝ) else -(1 / 2)) =
          (cubeIndices (m + 1)).map fun _ => if s then (1 / 2 : ℝ) else -(1 / 2) := by
        refine List.map_congr_left fun b hb => ?_
        have hb := mem_cubeIndices.1 hb
        have hs : (b.insertIdx a s)[a]? = some s := by rw [List.getElem?_insertIdx_self]; simp; omega
        rw [hq, hs, Option.getD_some]
      rw [hc']
      unfold axisPoint
      rw [if_pos hq]
      have : (2 : ℝ) ^ (m + 1) ≠ 0 := by positivity
      cases s <;> simp [cubeIndices_length] <;> field_simp
    · obtain ⟨i, hi, hiq⟩ : ∃ i < m + 1, liftAxis a i = q.val := by
        have := q.isLt
        rcases Nat.lt_or_gt_of_ne hq with h | h
        · exact ⟨q.val, by omega, if_pos h⟩
        · exact ⟨q.val - 1, by omega, by unfold liftAxis; rw [if_neg (by omega)]; omega⟩
      have hc' : ((cubeIndices (m + 1)).map fun b => if (b.insertIdx a s)[q.val]?.getD false then (1 / 2 : ℝ) else -(1 / 2)) =
          (cubeIndices (m + 1)).map fun b => if b[i]?.getD false then (1 / 2 : ℝ) else -(1 / 2) := by
        refine List.map_congr_left fun b hb => ?_
        have hb := mem_cubeIndices.1 hb
        rw [← hiq, getElem?_insertIdx_lift (by omega)]
      rw [hc', sum_cubeIndices_sign hi]
      unfold axisPoint
      rw [if_neg hq]
      simp
  · intro v hv
    obtain ⟨b, hb, -, rfl⟩ := mem_side.1 (hp.mem_iff.1 hv)
    exact (hpos b hb).1

/-- it is normalized to a unit vector -/
theorem normalized_middle {a : Nat} (ha : a < n) (s : Bool) :
    normalizedNan (fun q => axisPoint n a s q / 2) = some (axisPoint n a s) := by
  have hdot : dot (fun q => axisPoint n a s q / 2) (fun q => axisPoint n a s q / 2) = (1 / 2 : ℝ) ^ 2 := by
    show ∑ q, _ = _
    rw [Finset.sum_eq_single (⟨a, ha⟩ : Fin n)]
    · unfold axisPoint
      cases s <;> simp <;> norm_num
    · intro q _ hq
      have : q.val ≠ a := fun h => hq (Fin.ext h)
      simp [axisPoint, this]
    · simp
  unfold normalizedNan
  simp only [hdot]
  rw [Real.sqrt_sq (by norm_num), if_neg (by norm_num)]
  congr 1
  funext q
  ring

/-- the corners of stored cubes are corners of the top cubes -/
theorem corner_of_top {top : List (List Nat)} {t : Topo} (wf : CWF n top t) : ∀ (d : Nat) {k : Nat}, k + d = n →
    ∀ {e : List Nat}, e ∈ t.elements[k]?.getD [] → ∀ {v : Nat}, v ∈ e → ∃ f ∈ top, v ∈ f
  | 0, k, hk, e, he, v, hv => by
    obtain rfl : k = n := by omega
    rw [wf.top_eq] at he
    exact ⟨e, he, hv⟩
  | d + 1, k, hk, e, he, v, hv => by
    obtain ⟨h1, -, -, h4, -⟩ := wf.get (k := k) (by omega)
    obtain ⟨g, hg, i, hi, s, σ, hσ⟩ := h4.2 e he
    obtain ⟨b, hb, -, rfl⟩ := mem_side.1 ((hσ.perm (h1 e he).1).mem_iff.2 hv)
    have hgl := ((wf.get (k := k) (by omega)).2.1 g hg).1
    exact corner_of_top wf d (k := k + 1) (by omega) hg (cubeAt_mem hgl hb)

/-- C90: the vertices of `n_cube_dual` are the unit vectors along the axes and their opposites, and every simplex has the vertices
of one choice of signs. -/
theorem C90_positions (hu : UniqSpec uniq) (hsat : SatSpec solve) (hn : 2 ≤ n) (hn' : n ≤ 7) :
    ∃ t T V axis sd, nCubeDualComplex solve uniq n = .ok (t, V) ∧ nCubeDual solve uniq n = .ok t ∧
      t.elements[n - 1]? = some T ∧ V.length = 2 * n ∧ CrossAxes n T axis sd ∧
      ∀ j < 2 * n, V[j]? = some (axisPoint n (axis j) (sd j)) := by
  obtain ⟨m, rfl⟩ : ∃ m, n = m + 2 := ⟨n - 2, by omega⟩
  obtain ⟨t0, s, F, bit, axis, sd, facet, l, h1, h2, h3, H, hcF, ⟨hgl, hcl, hv⟩, hor, hP0, hbit, hsym⟩ := cube_facets hu hsat hn'
  obtain ⟨u, t, flip, g1, g2, g3, g4, g5, g6, g7, g8, g9, g10⟩ := dual_of_facets hu hsat H fun f hf => (hcF f hf).2
  have h0 : fromCubes uniq true (m + 2) [l] = .ok t0 := by
    have := h1
    unfold nCubeGrid at this
    rwa [hgl, List.length_replicate] at this
  have hbuilt := cubicalBoundary_built hu hcl h0 hor h2 h3
  have wf := fromCubes_wf hu hcF hbuilt
  have hcon := facets_connected H hcF hcl hv hbit hsym
  obtain ⟨-, -, hnone, horS⟩ := C76_boundary_coherent_and_closed hu hcl hsat h0 (sidesAtMostTwo_of_length (by simp)) hor h2
  rw [h3, Option.getD_some] at horS
  have hnone := hnone (horS hcon)
  obtain ⟨W, hW⟩ : ∃ W : List (Vec ℝ (m + 2)), W = (gridVertices (K := ℝ) (List.replicate (m + 2) 1) true).map
    fun r (q : Fin (m + 2)) => r[q.val]?.getD 0 := ⟨_, rfl⟩
  have hWl : W.length = 2 ^ (m + 2) := by
    rw [hW]
    simp [gridVertices, gridIndices_length, vshape]
  have hWpos : ∀ b : List Bool, b.length = m + 2 → ∃ x, W[cubeAt l b]? = some x ∧
      ∀ q : Fin (m + 2), x q = if b[q.val]?.getD false then 1 / 2 else -(1 / 2) := by
    intro b hb
    obtain ⟨r0, hr0, -⟩ := cube_vertex hgl hb ⟨0, by omega⟩
    refine ⟨_, by rw [hW, List.getElem?_map, hr0]; rfl, fun q => ?_⟩
    obtain ⟨r, hr, hq⟩ := cube_vertex hgl hb q
    rw [hr0] at hr
    obtain rfl := Option.some.inj hr
    exact hq
  have hbd : complexBoundary solve uniq t0 W = .ok (some (s.topo, W)) := by
    unfold complexBoundary
    simp only [h2, bind, Except.bind, hP0, Option.getD_some]
    rw [mapM_ok _ (fun v => W[v]?.getD 0)]
    · have : (List.range (2 ^ (m + 2))).map (fun v => W[v]?.getD 0) = W := by
        apply List.ext_getElem
        · simp [hWl]
        · intro i hi1 hi2
          simp [List.getElem?_eq_getElem hi2]
      rw [this]
    · intro v hv'
      have hlt : v < W.length := by rw [hWl]; exact List.mem_range.1 hv'
      rw [List.getElem?_eq_getElem hlt]
      rfl
  have hpp : cubicalPositions W s.topo = .ok (s.topo.elements.map fun rows => rows.map fun e q =>
      (e.map fun v => (W[v]?.getD 0) q).sum / (e.length : ℝ)) := by
    unfold cubicalPositions
    refine mapM_ok _ _ _ fun rows hr => mapM_ok _ _ _ fun e he => cubeMean_ok fun v hv' => ?_
    obtain ⟨k, hk⟩ := List.mem_iff_getElem?.1 hr
    have := (List.getElem?_eq_some_iff.1 hk).1
    have hl := wf.lenE
    obtain ⟨f, hf, hvf⟩ := corner_of_top wf (m + 1 - k) (k := k) (by omega) (e := e) (by rw [hk]; exact he) hv'
    obtain ⟨j, hj⟩ := List.mem_iff_getElem?.1 hf
    rw [hWl]
    exact ((H.mem j f hj v).1 hvf).1
  have hmean : ∀ f ∈ F, ∀ j, F[j]? = some f → (fun q => (f.map fun v => (W[v]?.getD 0) q).sum / (f.length : ℝ)) =
      fun q => axisPoint (m + 2) (axis j) (sd j) q / 2 := by
    intro f hf j hj
    obtain ⟨σ, hσ⟩ := hsym j f hj
    have hlt := H.axis_lt j (List.getElem?_eq_some_iff.1 hj).1
    have hm := facet_mean hcl (by omega) hWpos (hσ.perm (hcF f hf).1).symm
    rw [cubeMean_ok] at hm
    · exact Except.ok.inj hm
    · intro v hv'
      rw [hWl]
      exact ((H.mem j f hj v).1 hv').1
  have hlast : (s.topo.elements.map fun rows => rows.map fun (e : List Nat) (q : Fin (m + 2)) =>
      (e.map fun v => (W[v]?.getD 0) q).sum / (e.length : ℝ)).reverse[0]?.getD [] =
      (List.range F.length).map fun j q => axisPoint (m + 2) (axis j) (sd j) q / 2 := by
    rw [List.getElem?_reverse (by simp [wf.lenE]), List.length_map, wf.lenE, List.getElem?_map,
      show m + 1 + 1 - 1 - 0 = m + 1 from rfl, h3, Option.map_some, Option.getD_some]
    apply List.ext_getElem
    · simp
    · intro j hj1 hj2
      have hj : j < F.length := by simpa using hj1
      rw [List.getElem_map, List.getElem_map, List.getElem_range]
      exact hmean _ (List.getElem_mem hj) j (List.getElem?_eq_getElem hj)
  have hnorm : normalizedVertices ((List.range F.length).map fun j (q : Fin (m + 2)) => axisPoint (m + 2) (axis j) (sd j) q / 2) =
      .ok ((List.range F.length).map fun j => axisPoint (m + 2) (axis j) (sd j)) := by
    unfold normalizedVertices
    have : ((List.range F.length).map fun j (q : Fin (m + 2)) => axisPoint (m + 2) (axis j) (sd j) q / 2).mapM normalizedNan =
        some ((List.range F.length).map fun j => axisPoint (m + 2) (axis j) (sd j)) := by
      have hall : ∀ j ∈ List.range F.length, axis j < m + 2 := fun j hj => H.axis_lt j (List.mem_range.1 hj)
      generalize List.range F.length = L at hall
      induction L with
      | nil => rfl
      | cons a L ih =>
        rw [List.map_cons, List.mapM_cons, normalized_middle (hall a List.mem_cons_self),
          ih fun j hj => hall j (List.mem_cons_of_mem _ hj)]
        rfl
    rw [this]
  refine ⟨t, _, (List.range F.length).map fun j => axisPoint (m + 2) (axis j) (sd j), axis, sd, ?_, ?_, g5, by simp [H.length],
    H.crossAxes flip, fun j hj => ?_⟩
  · unfold nCubeDualComplex
    rw [← hW]
    simp only [h1, bind, Except.bind, hbd, show m + 2 - 1 = m + 1 from rfl, h3, Option.getD_some, g1, hpp, hnone, dualPosition, hlast,
      hnorm, g2, g3, g4]
  · unfold nCubeDual
    simp only [h1, bind, Except.bind, h2, show m + 2 - 1 = m + 1 from rfl, h3, Option.getD_some, g1, g2, g3, g4]
  · rw [List.getElem?_map, List.getElem?_range (by rw [H.length]; exact hj)]
    rfl

/-- C90, a case: the octahedron -/
theorem C90_positions_case : ∃ solve t T V axis sd, SatSpec solve ∧ nCubeDualComplex solve List.dedup 3 = .ok (t, V) ∧
    t.elements[2]? = some T ∧ V.length = 6 ∧ CrossAxes 3 T axis sd ∧ ∀ j < 6, V[j]? = some (axisPoint 3 (axis j) (sd j)) := by
  obtain ⟨solve, hsat⟩ := exists_satSolver
  obtain ⟨t, T, V, axis, sd, h1, -, h2, h3, h4, h5⟩ := C90_positions (n := 3) uniqSpec_dedup hsat (by norm_num) (by norm_num)
  exact ⟨solve, t, T, V, axis, sd, hsat, h1, h2, h3, h4, h5⟩

/-! ### dual_position -/

section general

variable {α : Type}

theorem takePositions_ok {p : List α} {idx : List Nat} {out : List α} (hlen : idx.length = out.length)
    (h : ∀ (i j : Nat), idx[i]? = some j → p[j]? = out[i]?) : takePositions p idx = .ok out := by
  unfold takePositions
  induction idx generalizing out with
  | nil => rw [List.length_nil] at hlen; rw [List.length_eq_zero_iff.1 hlen.symm]; rfl
  | cons a idx ih =>
    obtain ⟨x, out, rfl⟩ := List.exists_cons_of_length_pos (l := out) (by rw [← hlen]; simp)
    have h0 : p[a]? = some x := h 0 a rfl
    rw [List.mapM_cons, ih (by simpa using hlen) fun i j hij => h (i + 1) j hij, h0]
    rfl

theorem mapM_positions {f : List Nat × List α → Except PyErr (List α)} : ∀ {I : List (List Nat)} {pp bp : List (List α)},
    I.length ≤ pp.length → I.length = bp.length →
    (∀ (k : Nat) (P : List Nat) (p b : List α), I[k]? = some P → pp[k]? = some p → bp[k]? = some b → f (P, p) = .ok b) →
    (List.zip I pp).mapM f = .ok bp
  | [], pp, bp, _, h, _ => by rw [List.length_eq_zero_iff.1 h.symm]; rfl
  | P :: I, [], bp, h, _, _ => by simp at h
  | P :: I, p :: pp, [], _, h, _ => by simp at h
  | P :: I, p :: pp, b :: bp, h1, h2, h3 => by
    rw [List.zip_cons_cons, List.mapM_cons, h3 0 P p b rfl rfl rfl,
      mapM_positions (I := I) (pp := pp) (bp := bp) (by simpa using h1) (by simpa using h2) fun k => h3 (k + 1)]
    rfl

/-- `dual_position` from the positions of the boundary elements -/
theorem dualPosition_some {s : Sub} {pp bp : List (List α)} (h1 : s.parentIdx.length ≤ pp.length) (h2 : s.parentIdx.length = bp.length)
    (h3 : ∀ (k : Nat) (P : List Nat) (p b : List α), s.parentIdx[k]? = some P → pp[k]? = some p → bp[k]? = some b →
      P.length = b.length ∧ ∀ (i j : Nat), P[i]? = some j → p[j]? = b[i]?) :
    dualPosition pp (some s) = .ok (List.zipWith (fun p b => p ++ b) pp ([] :: bp)).reverse := by
  unfold dualPosition
  simp only [bind, Except.bind]
  rw [mapM_positions h1 h2 fun k P p b e1 e2 e3 => takePositions_ok (h3 k P p b e1 e2 e3).1 (h3 k P p b e1 e2 e3).2]

/-- C91: for a complex with boundary, `dual_position[n - k]` lists the positions of the primal elements of dimension `k`, in their
order, and after them those of the boundary elements of dimension `k - 1`, in the order of the boundary; so it has as many
entries as the dual has elements. -/
theorem C91_layout {full : List (List (List Nat))} {s : Sub} {pp : List (List α)} (hcor : Corresponds full s.topo.elements s.parentIdx)
    (hsub : s.topo.elements.length = n) (hpp : pp.length = n + 1) (hfull : ∀ k : Nat, (pp[k]?.getD []).length = (full[k]?.getD []).length) :
    ∃ dp, dualPosition pp (some s) = .ok dp ∧ dp.length = n + 1 ∧ ∀ k ≤ n, ∃ D, dp[n - k]? = some D ∧
      D.length = (full[k]?.getD []).length + (if k = 0 then 0 else s.topo.nElements (k - 1)) ∧
      (∀ i < (full[k]?.getD []).length, D[i]? = (pp[k]?.getD [])[i]?) ∧
      ∀ j, k = j + 1 → ∀ i < s.topo.nElements j, ∃ p, (s.parentIdx[j]?.getD [])[i]? = some p ∧
        D[(full[k]?.getD []).length + i]? = (pp[j]?.getD [])[p]? ∧ p < (pp[j]?.getD []).length := by
  obtain ⟨hlen, P0, hP0, hall⟩ := hcor
  have hidx : ∀ (j : Nat) (P : List Nat), s.parentIdx[j]? = some P → P.length = s.topo.nElements j ∧
      ∀ p ∈ P, p < (pp[j]?.getD []).length := by
    intro j P hP
    have hj : j < s.topo.elements.length := by rw [← hlen]; exact (List.getElem?_eq_some_iff.1 hP).1
    obtain ⟨P', G, e1, e2, e3, e4⟩ := hall j _ (List.getElem?_eq_getElem hj)
    rw [hP] at e1
    obtain rfl := Option.some.inj e1
    refine ⟨by rw [e3, Topo.nElements, List.getElem?_eq_getElem hj]; rfl, fun p hp => ?_⟩
    obtain ⟨i, hi⟩ := List.mem_iff_getElem?.1 hp
    have hil := (List.getElem?_eq_some_iff.1 hi).1
    rw [e3] at hil
    obtain ⟨-, p', e', q1, q2, -⟩ := e4 i _ (List.getElem?_eq_getElem hil)
    rw [hi] at q1
    obtain rfl := Option.some.inj q1
    rw [hfull, e2]
    exact (List.getElem?_eq_some_iff.1 q2).1
  obtain ⟨bp, hbp⟩ : ∃ bp : List (List α), bp = (List.range n).map fun k =>
      (s.parentIdx[k]?.getD []).filterMap fun i => (pp[k]?.getD [])[i]? := ⟨_, rfl⟩
  have hbk : ∀ k < n, ∃ P b, s.parentIdx[k]? = some P ∧ bp[k]? = some b ∧ P.length = b.length ∧
      ∀ (i j : Nat), P[i]? = some j → (pp[k]?.getD [])[j]? = b[i]? := by
    intro k hk
    have hP := List.getElem?_eq_getElem (l := s.parentIdx) (i := k) (by omega)
    refine ⟨_, _, hP, by rw [hbp, List.getElem?_map, List.getElem?_range hk]; rfl, ?_⟩
    simp only [hP, Option.getD_some]
    have := (hidx k _ hP).2
    generalize s.parentIdx[k] = P at this
    have hmap : (P.filterMap fun i => (pp[k]?.getD [])[i]?).map some = P.map fun i => (pp[k]?.getD [])[i]? := by
      induction P with
      | nil => rfl
      | cons a P ih =>
        have ha := this a List.mem_cons_self
        rw [List.filterMap_cons, List.getElem?_eq_getElem ha, List.map_cons, List.map_cons, List.getElem?_eq_getElem ha,
          ih fun p hp => this p (List.mem_cons_of_mem _ hp)]
    refine ⟨by simpa using (congrArg List.length hmap).symm, fun i j hij => ?_⟩
    have hi := congrArg (fun L : List (Option α) => L[i]?) hmap
    simp only [List.getElem?_map, hij, Option.map_some] at hi
    cases hb : (P.filterMap fun i => (pp[k]?.getD [])[i]?)[i]? with
    | none => rw [hb] at hi; simp at hi
    | some x => rw [hb] at hi; simpa using hi.symm
  have hbl : bp.length = n := by rw [hbp]; simp
  have hok : dualPosition pp (some s) = .ok (List.zipWith (fun p b => p ++ b) pp ([] :: bp)).reverse := by
    refine dualPosition_some (by omega) (by omega) fun k P p b e1 e2 e3 => ?_
    obtain ⟨P', b', f1, f2, f3, f4⟩ := hbk k (by rw [← hbl]; exact (List.getElem?_eq_some_iff.1 e3).1)
    rw [e1] at f1
    rw [e3] at f2
    obtain rfl := Option.some.inj f1
    obtain rfl := Option.some.inj f2
    rw [e2] at f4
    exact ⟨f3, f4⟩
  have hzl : (List.zipWith (fun p b => p ++ b) pp ([] :: bp)).length = n + 1 := by simp [hpp, hbl]
  refine ⟨_, hok, by rw [List.length_reverse, hzl], fun k hk => ?_⟩
  have hpk := List.getElem?_eq_getElem (l := pp) (i := k) (by omega)
  have hget : ∀ b, ([] :: bp)[k]? = some b →
      (List.zipWith (fun p b => p ++ b) pp ([] :: bp)).reverse[n - k]? = some (pp[k] ++ b) := by
    intro b hb
    rw [List.getElem?_reverse (by omega), hzl, show n + 1 - 1 - (n - k) = k by omega, List.getElem?_zipWith, hpk, hb]
  have hfk : (full[k]?.getD []).length = pp[k].length := by rw [← hfull k, hpk, Option.getD_some]
  cases k with
  | zero =>
    refine ⟨_, hget [] rfl, by simp [hfk], fun i hi => ?_, fun j hj => by omega⟩
    rw [List.append_nil, hpk, Option.getD_some]
  | succ k =>
    obtain ⟨P, b, f1, f2, f3, f4⟩ := hbk k (by omega)
    have hPl := (hidx k P f1).1
    refine ⟨_, hget b f2, ?_, fun i hi => ?_, ?_⟩
    · rw [List.length_append, hfk, if_neg (by omega), Nat.add_sub_cancel, ← f3, hPl]
    · rw [List.getElem?_append_left (by rw [← hfk]; exact hi), hpk, Option.getD_some]
    · rintro j hj i hi
      obtain rfl : k = j := by omega
      have hPi := List.getElem?_eq_getElem (l := P) (i := i) (by rw [hPl]; exact hi)
      refine ⟨P[i]'(by rw [hPl]; exact hi), by rw [f1]; exact hPi, ?_, (hidx k P f1).2 _ (List.getElem_mem _)⟩
      rw [hfk, List.getElem?_append_right (by omega), Nat.add_sub_cancel_left, f4 i _ hPi]

end general

/-- C91: the dual positions of an oriented cubical complex with boundary are its own positions and those of the complex
`boundary`; those of a closed one are its own positions in reverse order. -/
theorem C91_cubical {K : Type} [Field K] [CharZero K] {d : Nat} {cubes : List (List Nat)} {t : Topo} (hu : UniqSpec uniq)
    (hc : Cubes (n + 2) cubes) (hsat : SatSpec solve) (h : fromCubes uniq true (n + 2) cubes = .ok t)
    (h2 : SidesAtMostTwo (n + 1) cubes) (hor : isOriented solve t = .ok true) (V : List (Vec K d)) (hV : t.nElements 0 ≤ V.length) :
    ∃ pp, cubicalPositions V t = .ok pp ∧
      ((cubicalBoundary solve uniq t = .ok none ∧ complexBoundary solve uniq t V = .ok none ∧ dualPosition pp none = .ok pp.reverse) ∨
      ∃ s W bpp, cubicalBoundary solve uniq t = .ok (some s) ∧ complexBoundary solve uniq t V = .ok (some (s.topo, W)) ∧
        cubicalPositions W s.topo = .ok bpp ∧ bpp.length + 1 = pp.length ∧
        dualPosition pp (some s) = .ok (List.zipWith (fun p b => p ++ b) pp ([] :: bpp)).reverse) := by
  have wf := fromCubes_wf hu hc h
  have hlt : ∀ (k : Nat) (rows : List (List Nat)), t.elements[k]? = some rows → ∀ e ∈ rows, ∀ v ∈ e, v < V.length := by
    intro k rows hk e he v hv
    have := (List.getElem?_eq_some_iff.1 hk).1
    have hl := wf.lenE
    obtain ⟨i, hi⟩ := List.mem_iff_getElem?.1 he
    refine lt_of_lt_of_le (corners_lt wf (by omega) (k := k) (i := i) (by omega) ?_ hv) hV
    rw [hk]; exact hi
  have hpp : cubicalPositions V t = .ok (t.elements.map fun rows => rows.map fun e q =>
      (e.map fun v => (V[v]?.getD 0) q).sum / (e.length : K)) := by
    unfold cubicalPositions
    refine mapM_ok _ _ _ fun rows hr => mapM_ok _ _ _ fun e he => ?_
    obtain ⟨k, hk⟩ := List.mem_iff_getElem?.1 hr
    exact cubeMean_ok (hlt k rows hk e he)
  refine ⟨_, hpp, ?_⟩
  obtain ⟨⟨b, hb⟩, -⟩ := C76_closed_iff hu hc hsat h h2 hor
  cases b with
  | none => exact .inl ⟨hb, by unfold complexBoundary; rw [hb]; rfl, rfl⟩
  | some s =>
    right
    obtain ⟨P0, new, sides, hP0, hnew, hmap, hsub, -, -, hused, hcor⟩ := C76_boundary_elements hu hc hsat h h2 hor hb
    have hbuilt := cubicalBoundary_built hu hc h hor hb hnew
    have hstored := (wf.get (k := n + 1) (by omega)).1
    have hcn : Cubes (n + 1) new := by
      intro r hr
      have hm : (r.map fun v => P0[v]?.getD 0) ∈ sides := by rw [← hmap]; exact List.mem_map_of_mem hr
      have := hstored _ (hsub.subset hm)
      exact ⟨by simpa using this.1, List.Nodup.of_map _ this.2⟩
    have wfs := fromCubes_wf hu hcn hbuilt
    have hP0lt : ∀ v ∈ P0, v < V.length := by
      intro v hv
      obtain ⟨u, hu', rfl⟩ := List.getElem_of_mem hv
      obtain ⟨r, hr, hur⟩ := (hused u).2 hu'
      have hm : (r.map fun v => P0[v]?.getD 0) ∈ sides := by rw [← hmap]; exact List.mem_map_of_mem hr
      have hel : t.elements[n + 1]? = some (t.elements[n + 1]?.getD []) := by
        rw [List.getElem?_eq_getElem (by rw [wf.lenE]; omega)]; rfl
      exact hlt (n + 1) _ hel _ (hsub.subset hm) _ (List.mem_map.2 ⟨u, hur, by rw [List.getElem?_eq_getElem hu']; rfl⟩)
    obtain ⟨W, hW⟩ : ∃ W : List (Vec K d), W = P0.map fun v => V[v]?.getD 0 := ⟨_, rfl⟩
    have hbd : complexBoundary solve uniq t V = .ok (some (s.topo, W)) := by
      unfold complexBoundary
      simp only [hb, bind, Except.bind, hP0, Option.getD_some]
      rw [mapM_ok _ (fun v => V[v]?.getD 0), hW]
      intro v hv
      rw [List.getElem?_eq_getElem (hP0lt v hv)]
      rfl
    obtain ⟨hlen, P0', hP0', hall⟩ := hcor
    rw [hP0] at hP0'
    obtain rfl := Option.some.inj hP0'
    have hbpp : cubicalPositions W s.topo = .ok (s.topo.elements.map fun rows => rows.map fun e q =>
        (e.map fun v => (W[v]?.getD 0) q).sum / (e.length : K)) := by
      unfold cubicalPositions
      refine mapM_ok _ _ _ fun rows hr => mapM_ok _ _ _ fun e he => cubeMean_ok fun v hv => ?_
      obtain ⟨k, hk⟩ := List.mem_iff_getElem?.1 hr
      obtain ⟨P, G, -, -, -, e4⟩ := hall k rows hk
      obtain ⟨i, hi⟩ := List.mem_iff_getElem?.1 he
      rw [hW, List.length_map]
      exact (e4 i e hi).1 v hv
    refine ⟨s, W, _, hb, hbd, hbpp, by rw [List.length_map, List.length_map, wf.lenE, wfs.lenE], ?_⟩
    refine dualPosition_some (by rw [hlen, wfs.lenE, List.length_map, wf.lenE]; omega) (by rw [hlen, List.length_map]) ?_
    intro k P p b e1 e2 e3
    rw [List.getElem?_map] at e2 e3
    obtain ⟨E, hE, rfl⟩ := Option.map_eq_some_iff.1 e3
    obtain ⟨G, hG, rfl⟩ := Option.map_eq_some_iff.1 e2
    obtain ⟨P', G', f1, f2, f3, f4⟩ := hall k E hE
    rw [e1] at f1
    rw [hG] at f2
    obtain rfl := Option.some.inj f1
    obtain rfl := Option.some.inj f2
    refine ⟨by rw [List.length_map, f3], fun i j hij => ?_⟩
    have hil := (List.getElem?_eq_some_iff.1 hij).1
    rw [f3] at hil
    have hEi := List.getElem?_eq_getElem hil
    obtain ⟨hvl, p', e', q1, q2, q3⟩ := f4 i _ hEi
    rw [hij] at q1
    obtain rfl := Option.some.inj q1
    rw [List.getElem?_map, List.getElem?_map, hEi, q2, Option.map_some, Option.map_some]
    congr 1
    funext q
    rw [(q3.map fun v => (V[v]?.getD 0) q).sum_eq, q3.length_eq, List.length_map, List.map_map]
    congr 2
    refine List.map_congr_left fun v hv => ?_
    have hvl := hvl v hv
    simp [hW, List.getElem?_eq_getElem hvl]

/-- C91: for an oriented simplicial complex with boundary, whatever the positions of its elements are, `dual_position` succeeds with
one position for every row and column of the matrices of the dual. -/
theorem C91_simplicial {α : Type} {k : Nat} {simplices : List (List Nat)} {t : Topo} {s : Sub} {pp : List (List α)} (hu : UniqSpec uniq)
    (hs : Simplices (k + 3) simplices) (hsat : SatSpec solve) (h : fromSimplices uniq (k + 3) simplices = .ok t)
    (h2 : AtMostTwo simplices) (hb : boundary solve uniq t = .ok (some s)) (hpp : pp.map List.length = t.elements.map List.length) :
    ∃ dp D, dualPosition pp (some s) = .ok dp ∧ dp.length = k + 3 ∧ dualMatrix solve uniq t s (k + 1) = .ok D ∧
      (dp[0]?.getD []).length = D.rows ∧ (dp[1]?.getD []).length = D.cols := by
  have hor := oriented_of_boundary hb
  obtain ⟨wf, hok⟩ := boundary_sub hu hs h hor hb
  obtain ⟨-, -, -, -, -, -, -, -, -, -, hcor⟩ := C09_boundary_elements hu hs hsat h h2 hor hb
  have hl : pp.length = k + 2 + 1 := by
    have := congrArg List.length hpp
    rw [List.length_map, List.length_map, wf.lenE] at this
    exact this
  have hf : ∀ j : Nat, (pp[j]?.getD []).length = (t.elements[j]?.getD []).length := by
    intro j
    have := congrArg (fun L : List Nat => L[j]?) hpp
    simp only [List.getElem?_map] at this
    cases h1 : pp[j]? <;> cases h2 : t.elements[j]? <;> rw [h1, h2] at this <;> simp at this ⊢
    exact this
  obtain ⟨dp, g1, g2, g3⟩ := C91_layout (n := k + 2) hcor hok.wf.lenE hl hf
  obtain ⟨D, d1, d2, d3, -⟩ := C12_dual_edge_sums hu hs hsat h h2 hb
  obtain ⟨D0, a1, a2, -⟩ := g3 (k + 2) le_rfl
  obtain ⟨D1, b1, b2, -⟩ := g3 (k + 1) (by omega)
  rw [Nat.sub_self] at a1
  rw [show k + 2 - (k + 1) = 1 by omega] at b1
  refine ⟨dp, D, g1, g2, d1, ?_, ?_⟩
  · rw [a1, Option.getD_some, a2, d2, if_neg (by omega)]
    rfl
  · rw [b1, Option.getD_some, b2, d3, if_neg (by omega)]
    rfl

/-- C91, a case: two squares on a common edge, with seven edges and six boundary edges -/
theorem C91_case (hsat : SatSpec solve) :
    ∃ t s pp dp, fromCubes List.dedup true 2 [[0, 1, 2, 3], [2, 3, 4, 5]] = .ok t ∧ cubicalBoundary solve List.dedup t = .ok (some s) ∧
      cubicalPositions (K := ℚ) (d := 2)
        [![0, 0], ![0, 1], ![1, 0], ![1, 1], ![2, 0], ![2, 1]] t = .ok pp ∧ dualPosition pp (some s) = .ok dp ∧
      dp.map List.length = [8, 13, 6] ∧ (dp[0]?.getD [])[1]? = some ![3 / 2, 1 / 2] := by
  obtain ⟨hc, hf, -, -, -, hor⟩ := twoSquares_case hsat
  have hb : cubicalBoundary solve List.dedup (builtCubes 2 [[0, 1, 2, 3], [2, 3, 4, 5]]) = .ok (some
      (match subCubes List.dedup 1 (builtCubes 2 [[0, 1, 2, 3], [2, 3, 4, 5]])
        (bRows (builtCubes 2 [[0, 1, 2, 3], [2, 3, 4, 5]])) with | .ok s => s | .error _ => ⟨⟨[], [], []⟩, []⟩)) := by
    rw [cubicalBoundary_eq hor]
    decide +kernel
  have hp : ∃ pp dp, cubicalPositions (K := ℚ) (d := 2) [![0, 0], ![0, 1], ![1, 0], ![1, 1], ![2, 0], ![2, 1]]
      (builtCubes 2 [[0, 1, 2, 3], [2, 3, 4, 5]]) = .ok pp ∧ dualPosition pp (some
      (match subCubes List.dedup 1 (builtCubes 2 [[0, 1, 2, 3], [2, 3, 4, 5]])
        (bRows (builtCubes 2 [[0, 1, 2, 3], [2, 3, 4, 5]])) with | .ok s => s | .error _ => ⟨⟨[], [], []⟩, []⟩)) = .ok dp ∧
      dp.map List.length = [8, 13, 6] ∧ (dp[0]?.getD [])[1]? = some ![3 / 2, 1 / 2] := by
    refine ⟨match cubicalPositions (K := ℚ) (d := 2) [![0, 0], ![0, 1], ![1, 0], ![1, 1], ![2, 0], ![2, 1]]
        (builtCubes 2 [[0, 1, 2, 3], [2, 3, 4, 5]]) with | .ok p => p | .error _ => [],
      match dualPosition (match cubicalPositions (K := ℚ) (d := 2) [![0, 0], ![0, 1], ![1, 0], ![1, 1], ![2, 0], ![2, 1]]
        (builtCubes 2 [[0, 1, 2, 3], [2, 3, 4, 5]]) with | .ok p => p | .error _ => []) (some
        (match subCubes List.dedup 1 (builtCubes 2 [[0, 1, 2, 3], [2, 3, 4, 5]])
        (bRows (builtCubes 2 [[0, 1, 2, 3], [2, 3, 4, 5]])) with | .ok s => s | .error _ => ⟨⟨[], [], []⟩, []⟩)) with
        | .ok p => p | .error _ => [], ?_⟩
    unfold Vec
    decide +kernel
  obtain ⟨pp, dp, h1, h2, h3, h4⟩ := hp
  exact ⟨_, _, pp, dp, hf, hb, h1, h2, h3, h4⟩

end Verif.Props
