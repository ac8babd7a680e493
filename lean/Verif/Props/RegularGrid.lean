/-
C70: the metric of grids.
-/
import Verif.Props.RegularTotal

set_option linter.unusedSectionVars false

namespace Verif.Props

open Verif.Model Verif.Spec

variable {K : Type} [Field K] [LinearOrder K] [IsStrictOrderedRing K] {shape : List Nat} {t : Topo}
  {uniq : List (List Nat) → List (List Nat)} {solve : List (List Int) → Option (List Int)}

theorem corner_get {c : List Nat} {o : List Bool} (h : o.length = c.length) {a : Nat} (ha : a < c.length) :
    (corner c o)[a]? = some (c[a] + (o[a]'(by omega)).toNat) := by
  unfold corner
  rw [List.getElem?_zipWith, List.getElem?_eq_getElem ha, List.getElem?_map, List.getElem?_eq_getElem (by omega)]
  rfl

theorem mem_cellCorners {c : List Nat} {v : Nat} : v ∈ cellCorners shape c ↔ ∃ o : List Bool, o.length = shape.length ∧ num (vshape shape) (corner c o) = v := by
  unfold cellCorners cubeOf
  simp [mem_cubeIndices]

/-- at most half of the cubes around a vertex are around an element with more than one vertex -/
theorem grid_degree {m k : Nat} (hm : shape.length = m + 1) (hk : k ≤ shape.length) {e : List Nat} (he : e.length = 2 ^ k) {u v : Nat}
    (hu : u ∈ e) (hv : v ∈ e) (huv : u ≠ v) : (cubesAround shape.length k (gridCubes shape) e).length ≤ 2 ^ m := by
  have hcells : ∀ j ∈ cubesAround shape.length k (gridCubes shape) e, ∃ c, (gridIndices shape)[j]? = some c ∧ Spec.IsCell shape c ∧
      (∃ o : List Bool, o.length = shape.length ∧ num (vshape shape) (corner c o) = u) ∧
      ∃ o : List Bool, o.length = shape.length ∧ num (vshape shape) (corner c o) = v := by
    intro j hj
    obtain ⟨h1, h2⟩ := List.mem_filter.1 hj
    rw [List.mem_range, gridCubes_eq, List.length_map] at h1
    have hg := List.getElem?_eq_getElem h1
    have hcell := mem_gridIndices.1 (List.mem_of_getElem? hg)
    rw [gridCubes_eq, List.getElem?_map, hg, Option.map_some, Option.getD_some] at h2
    obtain ⟨hl, hnd⟩ := gridCubes_cubes shape (cellCorners shape (gridIndices shape)[j]) (by
      rw [gridCubes_eq]; exact List.mem_map_of_mem (List.getElem_mem h1))
    have hsub := ((hasFace_iff he (d := shape.length - k) (by rw [hl]; congr 1; omega) hnd).1 h2)
    rw [show k + (shape.length - k) = shape.length by omega] at hsub
    exact ⟨_, hg, hcell, mem_cellCorners.1 (hsub.subset hl u hu), mem_cellCorners.1 (hsub.subset hl v hv)⟩
  have hnd : (cubesAround shape.length k (gridCubes shape) e).Nodup := List.nodup_range.filter _
  generalize cubesAround shape.length k (gridCubes shape) e = L at hcells hnd
  cases L with
  | nil => simp
  | cons j0 L' =>
    obtain ⟨c0, hg0, hc0, ⟨o0, ho0, hn0⟩, o0', ho0', hn0'⟩ := hcells j0 (by simp)
    have hl0 := hc0.length_eq
    have hpne : corner c0 o0 ≠ corner c0 o0' := fun h => huv (by rw [← hn0, ← hn0', h])
    obtain ⟨a, ha, hane⟩ : ∃ a, ∃ _ : a < c0.length, (corner c0 o0)[a]? ≠ (corner c0 o0')[a]? := by
      by_contra hno
      push Not at hno
      apply hpne
      apply List.ext_getElem?
      intro a
      rcases Nat.lt_or_ge a c0.length with h | h
      · exact hno a h
      · rw [List.getElem?_eq_none, List.getElem?_eq_none] <;> simp [corner] <;> omega
    rw [corner_get (by omega) ha, corner_get (by omega) ha] at hane
    have key : ∀ j ∈ j0 :: L', ∃ o : List Bool, o.length = shape.length ∧ (∃ c, (gridIndices shape)[j]? = some c ∧ c.length = shape.length ∧ corner c o = corner c0 o0) ∧
        o[a]? = some (o0[a]'(by omega)) := by
      intro j hj
      obtain ⟨c, hg, hc, ⟨o, ho, hn⟩, o', ho', hn'⟩ := hcells j hj
      have hl := hc.length_eq
      have e1 := num_inj (corner_lt hc ho) (corner_lt hc0 ho0) (hn.trans hn0.symm)
      have e2 := num_inj (corner_lt hc ho') (corner_lt hc0 ho0') (hn'.trans hn0'.symm)
      refine ⟨o, ho, ⟨c, hg, hl, e1⟩, ?_⟩
      have f1 := congrArg (fun L : List Nat => L[a]?) e1
      have f2 := congrArg (fun L : List Nat => L[a]?) e2
      rw [corner_get (by omega) (by omega : a < c.length), corner_get (by omega) ha, Option.some.injEq] at f1 f2
      rw [List.getElem?_eq_getElem (by omega : a < o.length), Option.some.injEq]
      generalize o[a]'(by omega) = x at f1 ⊢
      generalize o'[a]'(by omega) = x' at f2
      generalize o0[a]'(by omega) = y at f1 hane ⊢
      generalize o0'[a]'(by omega) = y' at f2 hane
      cases x <;> cases x' <;> cases y <;> cases y' <;> simp at f1 f2 hane ⊢ <;> omega
    choose! g hg1 hg2 hg3 using key
    have hinj : ((j0 :: L').map g).Nodup := by
      refine List.Nodup.map_on ?_ hnd
      intro x hx y hy hxy
      obtain ⟨c, h1, h2, h3⟩ := hg2 x hx
      obtain ⟨c', h1', h2', h3'⟩ := hg2 y hy
      rw [hxy] at h3
      have hcc : c = c' := by
        have h4 := h3.trans h3'.symm
        apply List.ext_getElem?
        intro b
        rcases Nat.lt_or_ge b c.length with h | h
        · have := congrArg (fun L : List Nat => L[b]?) h4
          have hgl := hg1 y hy
          rw [corner_get (by omega) h, corner_get (by omega) (by omega : b < c'.length), Option.some.injEq] at this
          rw [List.getElem?_eq_getElem h, List.getElem?_eq_getElem (by omega)]
          congr 1
          omega
        · rw [List.getElem?_eq_none h, List.getElem?_eq_none (by omega)]
      subst hcc
      rw [← gridIndices_getElem_num h1, gridIndices_getElem_num h1']
    have hsub : (j0 :: L').map g ⊆ (cubeIndices (m + 1)).filter fun b => b[a]? == some (o0[a]'(by omega)) := by
      intro o ho
      obtain ⟨j, hj, rfl⟩ := List.mem_map.1 ho
      rw [List.mem_filter, mem_cubeIndices]
      exact ⟨by rw [hg1 j hj, hm], by rw [hg3 j hj]; simp⟩
    have hle := (List.subperm_of_subset hinj hsub).length_le
    have hs := side_length (k := m) (i := a) (by omega) (o0[a]'(by omega)) []
    unfold side at hs
    rw [List.length_map] at hs
    rw [List.length_map, hs] at hle
    exact hle

/-- the cells of a grid are boxes -/
theorem grid_boxes (f : Fin shape.length → K → K) (hf : ∀ q, Function.Injective (f q)) :
    ∀ l ∈ gridCubes shape, IsBox ((gridVertices (K := K) shape false).map fun r q => f q (r[q.val]?.getD 0)) l := by
  intro l hl
  obtain ⟨j, hj⟩ := List.mem_iff_getElem?.1 hl
  obtain ⟨c, hc, h⟩ := C22_corners (K := K) j l hj
  have hlen := hc.length_eq
  refine ⟨fun q => f q ((c[q.val]'(by omega) : Nat) : K), fun q => f q (((c[q.val]'(by omega) : Nat) : K) + 1), Equiv.refl _, ?_, ?_⟩
  · intro q h
    have := hf q h
    simp at this
  · intro o v ho hv
    have hh := h o ho
    unfold cubeAt at hh
    rw [hv, Option.getD_some] at hh
    refine ⟨_, by rw [List.getElem?_map, hh]; rfl, fun a => ?_⟩
    have ha : a.val < c.length := by omega
    simp only [Equiv.refl_apply]
    rw [← corner_eq, List.getElem?_map, corner_get (by omega) ha, Option.map_some, Option.getD_some,
      List.getElem?_eq_getElem (by omega : a.val < o.length)]
    cases o[a.val]'(by omega) <;> simp

/-- C70 for grids: `n_cube_grid` in dimensions 1 to 7, with any injective function applied to each coordinate of the
vertices: the metric needs no further assumption. -/
theorem C70_grid (hu : UniqSpec uniq) (hsat : SatSpec solve) (hn : 1 ≤ shape.length) (hn' : shape.length ≤ 7) (hs : ∀ m ∈ shape, 1 ≤ m)
    (f : Fin shape.length → K → K) (hf : ∀ q, Function.Injective (f q)) {V : List (Vec K shape.length)}
    (hV : V = (gridVertices (K := K) shape false).map fun r q => f q (r[q.val]?.getD 0)) :
    ∃ t PM DM, nCubeGrid uniq shape true = .ok t ∧ regularMetric solve t V = .ok (PM, DM) ∧
      (∀ k ≤ shape.length, ∀ E, t.elements[k]? = some E → PM[k]? = some (E.map (boxMeasure V))) ∧
      DM[0]? = some (List.replicate shape.prod 1) ∧
      (∀ k < shape.length, ∀ E, t.elements[k]? = some E →
        DM[shape.length - k]? = some (E.map (dualMeasure V k (gridCubes shape)))) ∧
      ∀ k ≤ shape.length, ∃ A D, PM[k]? = some A ∧ DM[shape.length - k]? = some D ∧
        (List.zipWith (· * ·) A D).sum = shape.length.choose k * ((gridCubes shape).map (boxMeasure V)).sum := by
  obtain ⟨t, ht⟩ := C22_accepted hu hn hn' hs
  have hc := gridCubes_cubes shape
  have hor := C22_oriented hu hsat hn ht
  have ht' := ht
  unfold nCubeGrid at ht'
  have w := fromCubes_wf hu hc ht'
  have hbox : ∀ l ∈ gridCubes shape, IsBox V l := by rw [hV]; exact grid_boxes f hf
  have hdeg : ∀ k E, 1 ≤ k → k < shape.length → t.elements[k]? = some E → ∀ e ∈ E,
      (cubesAround shape.length k (gridCubes shape) e).length < 128 := by
    intro k E hk hkn hE e he
    obtain ⟨i, hi⟩ := List.mem_iff_getElem?.1 he
    have hst : Stored t k i e := by unfold Stored; rw [hE]; exact hi
    obtain ⟨hel, hnd⟩ := w.cube hn (by omega) hst
    have h2 : 2 ^ 1 ≤ 2 ^ k := Nat.pow_le_pow_right (by omega) hk
    have h0 : 0 < e.length := by omega
    have h1 : 1 < e.length := by omega
    have hne : e[0] ≠ e[1] := fun h => by
      have := hnd.getElem_inj_iff.1 h
      omega
    have hle := grid_degree (shape := shape) (m := shape.length - 1) (by omega) (by omega) hel (List.getElem_mem h0) (List.getElem_mem h1) hne
    have : 2 ^ (shape.length - 1) ≤ 2 ^ 6 := Nat.pow_le_pow_right (by omega) (by omega)
    omega
  obtain ⟨PM, DM, h1, h2, h3, h4, h5, h6⟩ := C70_metric hu hc hn ht' hbox hor hdeg
  obtain ⟨PM', DM', g1, g2⟩ := C70_total hu hc hn ht' hbox hor hdeg
  obtain ⟨rfl, rfl⟩ := Prod.mk.inj (Except.ok.inj (g1.symm.trans h1))
  refine ⟨t, _, _, ht, h1, h4, by rw [h5, C22_count], h6, fun k hk => ?_⟩
  obtain ⟨A, D, a1, a2, -, a4⟩ := g2 k hk
  exact ⟨A, D, a1, a2, a4⟩

/-! ### cases -/

/-- a solver that gives every clause the same sign, enough for the cases below -/
def positive (clauses : List (List Int)) : Option (List Int) :=
  some ((List.range ((clauses.flatten.map Int.natAbs).foldl max 0)).map fun j : Nat => (j : Int) + 1)

/-- the metric of the squares with the given vertices -/
def squaresMetric (cubes : List (List Nat)) (V : List (Vec ℚ 2)) : Except PyErr (List (List ℚ) × List (List ℚ)) := do
  let t ← fromCubes List.dedup true 2 cubes
  regularMetric positive t V

/-- a case of `C70_metric` and `C70_total`: boxes of 2 by 1 and 1 by 1 with one side in common -/
example : squaresMetric [[0, 1, 2, 3], [2, 3, 4, 5]] [![0, 0], ![0, 1], ![2, 0], ![2, 1], ![3, 0], ![3, 1]] =
    .ok ([[1, 1, 1, 1, 1, 1], [1, 2, 2, 1, 1, 1, 1], [2, 1]],
      [[1, 1], [1, 1 / 2, 1 / 2, 3 / 2, 1 / 2, 1 / 2, 1 / 2], [1 / 2, 1 / 2, 3 / 4, 3 / 4, 1 / 4, 1 / 4]]) := by decide +kernel

/-- a case of `C70_grid`: three by two cells, 5 wide and 2 high -/
example (hu : UniqSpec uniq) (hsat : SatSpec solve) := C70_grid (K := ℚ) (shape := [3, 2]) hu hsat (by decide) (by decide) (by decide)
  (fun q x => if q = 0 then 5 * x else 2 * x)
  (fun q x y h => by
    by_cases hq : q = 0
    · simpa [hq] using h
    · simpa [hq] using h) rfl

/-- a case of `C70_negative` -/
example := C70_negative (solve := positive) uniqSpec_dedup (m := 200) (by decide) (by decide)

/-- C70, limit: a square of area 2 that stands on a corner gets the area zero, and so do the cells dual to its vertices. The
measures are products of differences of coordinates and mean something only if the sides lie along the coordinates. -/
theorem C70_rotated_negated : squaresMetric [[0, 1, 2, 3]] [![1, 0], ![0, 1], ![0, -1], ![-1, 0]] =
    .ok ([[1, 1, 1, 1], [1, 1, 1, 1], [0]], [[1], [1 / 2, 1 / 2, 1 / 2, 1 / 2], [0, 0, 0, 0]]) := by decide +kernel

end Verif.Props
