/-
C87: triangles whose fundamental domains can be looked up, and triangles whose domains cannot.
-/
import Verif.Props.FundamentalSample
import Verif.Props.PickingInstances

set_option linter.unusedSectionVars false

namespace Verif.Props

open Verif.Model Verif.Spec

/-- C87: a mesh whose subdivision has no flat simplices meets the hypotheses -/
theorem C87_applies {D m : Nat} {uniq : List (List Nat) → List (List Nat)} {simplices : List (List Nat)} {t : Topo}
    {V : List (Vec ℝ D)} (hu : UniqSpec uniq) (hs : Simplices (m + 2) simplices)
    (hb : fromSimplices uniq (m + 2) simplices = .ok t) (hne : simplices ≠ [])
    (hv : ∀ l ∈ simplices, ∀ v ∈ l, v < V.length) (hD : 1 ≤ D) (hnd : NonDegenerate V (m + 1) simplices)
    {y : Finset Nat → Nat → ℝ} {ctr : Finset Nat → Fin D → ℝ} (hc : PowerCenters V (weightAt none) simplices y ctr)
    {rows : List (List Nat)} {t' : Topo} (ht' : subdivideFundamental uniq t true = .ok t')
    (hrows : t'.elements[m + 1]? = some rows) (hnd' : NonDegenerate (subVertices t (m + 1) ctr) (m + 1) rows) :
    ∃ eigh ratio w y' ctr', SubInput uniq eigh ratio (m + 1) simplices t V none y ctr rows t'
      (subVertices t (m + 1) ctr) w y' ctr' := by
  obtain ⟨r1, h1⟩ := exists_tolerance V t.elements (m + 1)
  obtain ⟨r2, h2⟩ := exists_tolerance (subVertices t (m + 1) ctr) t'.elements (m + 1)
  choose eigh he using exists_eigh_function
  have hp : CenterInput uniq eigh (max r1 r2) (m + 1) simplices t V none y ctr :=
    ⟨hu, hs, hb, hne, hv, fun w hw => by simp at hw, he, (h1 _ (le_max_left _ _)).level, hnd, hc⟩
  obtain ⟨hn, wf⟩ := fromSimplices_wf hu hs hb
  obtain ⟨t'', g1, wf'⟩ := subdivideFundamental_ok hu wf hs true
  rw [ht'] at g1
  obtain rfl := Except.ok.inj g1
  have hdiv : complexFundamental uniq eigh (max r1 r2) t V none true = .ok (t', subVertices t (m + 1) ctr) := by
    unfold complexFundamental
    rw [(C61_centers hp).2, ht']
    rfl
  obtain ⟨-, rows', doms, wf'', hs', -, hne', -⟩ := sub_rows hp hdiv
  have hr : rows' = rows := by
    have := wf''.top_eq
    rw [hrows] at this
    exact (Option.some.inj this).symm
  subst hr
  have hbuilt : fromSimplices uniq (m + 2) rows' = .ok t' := by
    have h3 := wf'.top_eq
    rw [hrows] at h3
    have h4 := ht'
    unfold subdivideFundamental at h4
    rw [fundamentalSimplices_eq wf hs true] at h4
    simp only [bind, Except.bind, wf.lenB] at h4
    rw [Option.some.inj h3]
    simpa only [true_and, eq_self_iff_true] using h4
  obtain ⟨doms', t'', rows'', -, e2, -, -, e3, -⟩ := C15_simplices hu hs hb true
  rw [ht'] at e2
  obtain rfl := Except.ok.inj e2
  have hlen : (subVertices t (m + 1) ctr).length = t'.nElements 0 := by
    rw [e3]
    unfold subVertices
    rw [List.length_flatten, List.map_map]
    congr 1
    apply List.map_congr_left
    intro k _
    simp [Topo.nElements]
  have hle : t.nElements 0 ≤ t'.nElements 0 := by
    rw [e3, List.range_succ_eq_map, List.map_cons, List.sum_cons]
    omega
  have hlt : ∀ l ∈ rows', ∀ v ∈ l, v < t'.nElements 0 := fun l hl =>
    vertices_lt wf'' (by omega) hs' (le_refl (m + 1)) (by rw [hrows]; exact hl)
  obtain ⟨⟨w, hw, hwl, -⟩, -⟩ := C87_weights hu hs' hbuilt (V := subVertices t (m + 1) ctr)
    (by rw [hlen]; exact hlt) hD hle
  obtain ⟨y', ctr', hc'⟩ := exists_power_centers hnd' hs' (weightAt (some w))
  refine ⟨eigh, max r1 r2, w, y', ctr', hp, hdiv, hw, hu, hs', hbuilt, hne', by rw [hlen]; exact hlt, ?_, he,
    (h2 _ (le_max_right _ _)).level, hnd', hc'⟩
  intro w' hw'
  rw [← Option.some.inj hw', hwl]
  exact hlt

/-! ### a triangle -/

/-- a triangle with a base of length two and the height `h` -/
def tentCorners (h : ℝ) : List (Vec ℝ 2) := [![-1, 0], ![1, 0], ![0, h]]

/-- its fundamental domains -/
def tentRows : List (List Nat) := [[1, 3, 6], [2, 6, 3], [2, 4, 6], [0, 6, 4], [0, 5, 6], [1, 6, 5]]

theorem tent_simplices : Simplices 3 [[0, 1, 2]] := simplices_of_all (by decide)

theorem tent_built : fromSimplices List.dedup 3 [[0, 1, 2]] = .ok (built 3 [[0, 1, 2]]) := by decide +kernel

theorem tent_divided : subdivideFundamental List.dedup (built 3 [[0, 1, 2]]) true = .ok (built 3 tentRows) := by
  decide +kernel

theorem tent_elements : (built 3 [[0, 1, 2]]).elements =
    [[[0], [1], [2]], [[1, 2], [2, 0], [0, 1]], [[0, 1, 2]]] := by decide +kernel

theorem tent_nondegenerate {h : ℝ} (hh : h = 5 ∨ h = 7 / 4) : NonDegenerate (tentCorners h) 2 [[0, 1, 2]] := by
  intro l hl
  apply affineIndependent_of
  intro w h1 h2
  have a := h2 0
  have b := h2 1
  rw [List.mem_singleton] at hl
  subst hl
  simp [Fin.sum_univ_three, cornersOf, position, tentCorners] at h1 a b
  rcases hh with rfl | rfl <;>
  · norm_num at b
    intro i
    fin_cases i <;> simp <;> linarith

/-- the vertices of the subdivision -/
noncomputable def tentVertices (h : ℝ) : List (Vec ℝ 2) :=
  [![-1, 0], ![1, 0], ![0, h], ![1 / 2, h / 2], ![-1 / 2, h / 2], ![0, 0], ![0, (h ^ 2 - 1) / (2 * h)]]

theorem tent_centers {h : ℝ} (hh : h = 5 ∨ h = 7 / 4) {y : Finset Nat → Nat → ℝ} {ctr : Finset Nat → Fin 2 → ℝ}
    (hc : PowerCenters (tentCorners h) (weightAt none) [[0, 1, 2]] y ctr) :
    subVertices (built 3 [[0, 1, 2]]) 2 ctr = tentVertices h := by
  have h0 := center_point (hc {0} ⟨by simp, [0, 1, 2], by simp, by simp⟩)
  have h1 := center_point (hc {1} ⟨by simp, [0, 1, 2], by simp, by simp⟩)
  have h2 := center_point (hc {2} ⟨by simp, [0, 1, 2], by simp, by simp⟩)
  have hT := hc {0, 1, 2} ⟨by simp, [0, 1, 2], by simp, by simp⟩
  have hA := hc {1, 2} ⟨by simp, [0, 1, 2], by simp, by decide⟩
  have hB := hc {2, 0} ⟨by simp, [0, 1, 2], by simp, by decide⟩
  have hC := hc {0, 1} ⟨by simp, [0, 1, 2], by simp, by decide⟩
  have t1 := hT.equal 0 (by simp) 1 (by simp)
  have t2 := hT.equal 0 (by simp) 2 (by simp)
  have a1 := hA.one
  have a2 := hA.point 0
  have a3 := hA.point 1
  have a4 := hA.equal 1 (by simp) 2 (by simp)
  have b1 := hB.one
  have b2 := hB.point 0
  have b3 := hB.point 1
  have b4 := hB.equal 2 (by simp) 0 (by simp)
  have c1 := hC.one
  have c2 := hC.point 0
  have c3 := hC.point 1
  have c4 := hC.equal 0 (by simp) 1 (by simp)
  rw [Finset.sum_pair (by decide)] at a1 a2 a3 b1 b2 b3 c1 c2 c3
  have e : subVertices (built 3 [[0, 1, 2]]) 2 ctr = [ctr {0}, ctr {1}, ctr {2}, ctr {1, 2}, ctr {2, 0}, ctr {0, 1},
      ctr {0, 1, 2}] := by
    unfold subVertices
    rw [tent_elements]
    rfl
  rw [e, h0, h1, h2, tentVertices]
  simp [position, tentCorners, weightAt, power, Fin.sum_univ_two] at a1 a2 a3 a4 b1 b2 b3 b4 c1 c2 c3 c4 t1 t2
  generalize ctr {1, 2} = A at *
  generalize ctr {2, 0} = B at *
  generalize ctr {0, 1} = C at *
  generalize ctr {0, 1, 2} = T at *
  have ext2 : ∀ (u : Fin 2 → ℝ) (p q : ℝ), u 0 = p → u 1 = q → u = ![p, q] := by
    intro u p q hp hq
    funext i
    fin_cases i
    · exact hp
    · exact hq
  rw [ext2 A (1 / 2) (h / 2), ext2 B (-1 / 2) (h / 2), ext2 C 0 0, ext2 T 0 ((h ^ 2 - 1) / (2 * h))]
  · simp [position, tentCorners]
  all_goals rcases hh with rfl | rfl
  all_goals linarith

theorem tentVertices_nondegenerate {h : ℝ} (hh : h = 5 ∨ h = 7 / 4) : NonDegenerate (tentVertices h) 2 tentRows := by
  intro l hl
  apply affineIndependent_of
  intro w h1 h2
  have a := h2 0
  have b := h2 1
  simp only [tentRows, List.mem_cons, List.not_mem_nil, or_false] at hl
  rcases hh with rfl | rfl <;> rcases hl with rfl | rfl | rfl | rfl | rfl | rfl <;>
  · simp [Fin.sum_univ_three, cornersOf, position, tentVertices] at h1 a b
    norm_num at a b
    intro i
    fin_cases i <;> simp <;> linarith

theorem tent_input {h : ℝ} (hh : h = 5 ∨ h = 7 / 4) : ∃ eigh ratio y ctr w y' ctr',
    SubInput List.dedup eigh ratio 2 [[0, 1, 2]] (built 3 [[0, 1, 2]]) (tentCorners h) none y ctr
      tentRows (built 3 tentRows) (tentVertices h) w y' ctr' := by
  obtain ⟨y, ctr, hc⟩ := exists_power_centers (tent_nondegenerate hh) tent_simplices (weightAt none)
  have hV := tent_centers hh hc
  obtain ⟨eigh, ratio, w, y', ctr', hsub⟩ := C87_applies (D := 2) (m := 1) uniqSpec_dedup tent_simplices tent_built (by simp)
    (V := tentCorners h) (by simp [tentCorners]) (by omega) (tent_nondegenerate hh) hc tent_divided
    (rows := tentRows) (by decide +kernel) (by rw [hV]; exact tentVertices_nondegenerate hh)
  rw [hV] at hsub
  exact ⟨eigh, ratio, y, ctr, w, y', ctr', hsub⟩

section

variable {h : ℝ} {eigh : (n : Nat) → Matrix (Fin n) (Fin n) ℝ → Eigh n ℝ} {ratio : ℝ}
  {y : Finset Nat → Nat → ℝ} {ctr : Finset Nat → Fin 2 → ℝ} {w : List ℝ} {y' : Finset Nat → Nat → ℝ}
  {ctr' : Finset Nat → Fin 2 → ℝ}

theorem tent_edges : (built 3 tentRows).elements[1]?.getD [] =
    [[1, 3], [3, 6], [3, 2], [2, 6], [2, 4], [4, 6], [4, 0], [0, 6], [0, 5], [5, 6], [5, 1], [6, 1]] := by decide +kernel

theorem tent_weights (hh : h = 5 ∨ h = 7 / 4)
    (hs : SubInput List.dedup eigh ratio 2 [[0, 1, 2]] (built 3 [[0, 1, 2]]) (tentCorners h) none y ctr
      tentRows (built 3 tentRows) (tentVertices h) w y' ctr') :
    weightAt (some w) 0 = (if h = 5 then 713 / 600 else 5273 / 18816) ∧
    weightAt (some w) 1 = (if h = 5 then 713 / 600 else 5273 / 18816) ∧
    weightAt (some w) 2 = (if h = 5 then 247 / 150 else 10595 / 37632) ∧
    ∀ v, 3 ≤ v → weightAt (some w) v = 0 := by
  obtain ⟨h1, h2⟩ := hs.weight (m := 1) (by omega)
  have h3 : (built 3 [[0, 1, 2]]).nElements 0 = 3 := by decide +kernel
  rw [h3] at h1 h2
  rw [tent_edges] at h1
  have f0 : [[1, 3], [3, 6], [3, 2], [2, 6], [2, 4], [4, 6], [4, 0], [0, 6], [0, 5], [5, 6], [5, 1], [6, 1]].filter
    (fun e => decide (0 ∈ e)) = [[4, 0], [0, 6], [0, 5]] := by decide
  have f1 : [[1, 3], [3, 6], [3, 2], [2, 6], [2, 4], [4, 6], [4, 0], [0, 6], [0, 5], [5, 6], [5, 1], [6, 1]].filter
    (fun e => decide (1 ∈ e)) = [[1, 3], [5, 1], [6, 1]] := by decide
  have f2 : [[1, 3], [3, 6], [3, 2], [2, 6], [2, 4], [4, 6], [4, 0], [0, 6], [0, 5], [5, 6], [5, 1], [6, 1]].filter
    (fun e => decide (2 ∈ e)) = [[3, 2], [2, 6], [2, 4]] := by decide
  refine ⟨?_, ?_, ?_, h2⟩
  · rw [h1 0 (by omega), f0]
    rcases hh with rfl | rfl <;> simp [mean, edgeSquare, dist2, Fin.sum_univ_two, position, tentVertices] <;> norm_num
  · rw [h1 1 (by omega), f1]
    rcases hh with rfl | rfl <;> simp [mean, edgeSquare, dist2, Fin.sum_univ_two, position, tentVertices] <;> norm_num
  · rw [h1 2 (by omega), f2]
    rcases hh with rfl | rfl <;> simp [mean, edgeSquare, dist2, Fin.sum_univ_two, position, tentVertices] <;> norm_num

theorem tent_delaunay (hh : h = 5 ∨ h = 7 / 4)
    (hs : CenterInput List.dedup eigh ratio 2 [[0, 1, 2]] (built 3 [[0, 1, 2]]) (tentCorners h) none y ctr) :
    isPairwiseDelaunay eigh ratio (built 3 [[0, 1, 2]]) (tentCorners h) none = .ok true := by
  have hE : (built 3 [[0, 1, 2]]).elements[2 - 1]?.getD [] = [[1, 2], [2, 0], [0, 1]] := by decide +kernel
  have one : ∀ e, (incident [[0, 1, 2]] e).length ≤ 1 := fun e => List.length_filter_le _ _
  obtain ⟨b, hb, hiff⟩ := C61_delaunay hs (le_refl 2) (fun e _ => (one e).trans (by omega)) (fun e _ l l' hl => by
    have := one e
    rw [hl] at this
    simp at this)
  rw [hb]
  congr 1
  rw [hiff, hE]
  have hT := hs.centers {0, 1, 2} ⟨by simp, [0, 1, 2], by simp, by simp⟩
  have t1 := hT.equal 0 (by simp) 1 (by simp)
  have t2 := hT.equal 0 (by simp) 2 (by simp)
  have t3 := hT.one
  have t4 := hT.point 0
  have t5 := hT.point 1
  rw [Finset.sum_insert (by decide), Finset.sum_pair (by decide)] at t3 t4 t5
  simp [position, tentCorners, weightAt, power, Fin.sum_univ_two] at t1 t2 t3 t4 t5
  generalize ctr {0, 1, 2} = T at *
  have h0 : T 0 = 0 := by linarith
  rw [h0] at t2 t4
  have hpos : 0 < y {0, 1, 2} 0 ∧ 0 < y {0, 1, 2} 1 ∧ 0 < y {0, 1, 2} 2 := by
    rcases hh with rfl | rfl
    · have : T 1 = 12 / 5 := by linarith
      refine ⟨?_, ?_, ?_⟩ <;> linarith
    · have : T 1 = 33 / 56 := by linarith
      refine ⟨?_, ?_, ?_⟩ <;> linarith
  intro e he
  refine ⟨fun l hl => ?_, fun l l' hl => by
    have := one e
    rw [hl] at this
    simp at this⟩
  have hl' : l = [0, 1, 2] := by
    have : l ∈ incident [[0, 1, 2]] e := by rw [hl]; simp
    simpa using (List.mem_filter.1 this).1
  subst hl'
  simp only [List.mem_cons, List.not_mem_nil, or_false] at he
  rcases he with rfl | rfl | rfl
  · exact hpos.1
  · exact hpos.2.1
  · exact hpos.2.2

end

/-- C87 fails for acute triangles: the triangle with the corners (-1, 0), (1, 0) and (0, 5) is pairwise Delaunay, the
coordinates of its center are positive, and its fundamental domains cannot be looked up -/
theorem C87_acute_fails : ∃ eigh ratio y ctr w y' ctr',
    SubInput List.dedup eigh ratio 2 [[0, 1, 2]] (built 3 [[0, 1, 2]]) (tentCorners 5) none y ctr
      tentRows (built 3 tentRows) (tentVertices 5) w y' ctr' ∧
    isPairwiseDelaunay eigh ratio (built 3 [[0, 1, 2]]) (tentCorners 5) none = .ok true ∧
    ∀ solve minres nearest points hints,
      pickFundamental solve List.dedup eigh ratio minres nearest (built 3 [[0, 1, 2]]) (tentCorners 5) none points hints =
        .error .assertionError := by
  obtain ⟨eigh, ratio, y, ctr, w, y', ctr', hs⟩ := tent_input (.inl rfl)
  refine ⟨eigh, ratio, y, ctr, w, y', ctr', hs, tent_delaunay (.inl rfl) hs.parent, fun solve minres nearest points hints => ?_⟩
  obtain ⟨w0, w1, -⟩ := tent_weights (.inl rfl) hs
  refine (C87_plane_rejects hs (e := [0, 1]) (by rw [tent_elements]; simp) ?_ points).1 hints
  simp only [List.getElem?_cons_zero, List.getElem?_cons_succ, Option.getD_some, w0, w1, if_true]
  simp [edgeSquare, dist2, Fin.sum_univ_two, position, tentCorners]
  norm_num

/-- C87: the triangle with the corners (-1, 0), (1, 0) and (0, 7/4) meets the hypotheses of the theorems, its subdivision
is a weighted Delaunay triangulation, and the point (0, 1) lies in it -/
theorem C87_case {solve : List (List Int) → Option (List Int)} (hsat : SatSpec solve) :
    ∃ eigh ratio minres nearest y ctr w y' ctr' s ms,
    SubInput List.dedup eigh ratio 2 [[0, 1, 2]] (built 3 [[0, 1, 2]]) (tentCorners (7 / 4)) none y ctr
      tentRows (built 3 tentRows) (tentVertices (7 / 4)) w y' ctr' ∧
    PickInput (m := 0) solve List.dedup eigh ratio minres nearest tentRows (built 3 tentRows) (tentVertices (7 / 4))
      (some w) y' ctr' ∧
    isPairwiseDelaunay eigh ratio (built 3 [[0, 1, 2]]) (tentCorners (7 / 4)) none = .ok true ∧
    Delaunay (tentVertices (7 / 4)) (weightAt (some w)) ctr' tentRows ∧
    (∃ r0 ∈ tentRows, InSimplex (tentVertices (7 / 4)) r0 ![0, 1]) ∧
    AtMostTwo [[0, 1, 2]] ∧ boundary solve List.dedup (built 3 [[0, 1, 2]]) = .ok (some s) ∧
    simplicialDual solve List.dedup (built 3 [[0, 1, 2]]) = .ok ms ∧ InOrder s.parentIdx := by
  obtain ⟨eigh, ratio, y, ctr, w, y', ctr', hs⟩ := tent_input (.inr rfl)
  obtain ⟨minres, hmin⟩ := exists_minres
  obtain ⟨nearest, hnear⟩ := exists_nearest
  obtain ⟨w0, w1, w2, w3⟩ := tent_weights (.inr rfl) hs
  rw [if_neg (by norm_num)] at w0 w1 w2
  have hm : AtMostTwo [[0, 1, 2]] := atMostTwo_of_check (by decide +kernel)
  have hconp : Connected [[0, 1, 2]] := connected_of_chain fun j hj => by simp at hj
  have hcon : Connected tentRows := by
    refine connected_of_chain fun j hj => ?_
    have hj : j < 5 := by simp [tentRows] at hj; omega
    interval_cases j
    · exact ⟨[3, 6], sharedFace_of_check (by decide +kernel)⟩
    · exact ⟨[2, 6], sharedFace_of_check (by decide +kernel)⟩
    · exact ⟨[4, 6], sharedFace_of_check (by decide +kernel)⟩
    · exact ⟨[0, 6], sharedFace_of_check (by decide +kernel)⟩
    · exact ⟨[5, 6], sharedFace_of_check (by decide +kernel)⟩
  have hco : ∀ rows, Simplices 3 rows → fromSimplices List.dedup 3 rows = .ok (built 3 rows) →
      (∀ c ∈ allClauses ((built 3 rows).matrix 1), Satisfies (fun _ => false) c) → Coherent rows := by
    intro rows hr hf hc
    rw [← reorient_false rows, ← (wf_built hr hf).satisfies_iff_coherent hr (fun _ => false)]
    exact hc
  have hor : isOriented solve (built 3 tentRows) = .ok true :=
    (C08_connected_exact uniqSpec_dedup hs.sub.rows hsat hs.sub.built (by decide) hcon).2
      (hco _ hs.sub.rows hs.sub.built (by decide +kernel))
  have horp : isOriented solve (built 3 [[0, 1, 2]]) = .ok true :=
    (C08_connected_exact uniqSpec_dedup tent_simplices hsat tent_built (by decide) hconp).2
      (hco _ tent_simplices tent_built (by decide +kernel))
  have hdel : isPairwiseDelaunay eigh ratio (built 3 tentRows) (tentVertices (7 / 4)) (some w) = .ok true := by
    obtain ⟨b, hb, hiff⟩ := C87_plane_delaunay hs
    rw [hb]
    congr 1
    rw [hiff, tent_elements]
    intro e he
    simp only [List.getElem?_cons_zero, List.getElem?_cons_succ, Option.getD_some, List.mem_cons, List.not_mem_nil,
      or_false] at he
    rcases he with rfl | rfl | rfl <;>
    · simp only [List.getElem?_cons_zero, List.getElem?_cons_succ, Option.getD_some, w0, w1, w2]
      simp [edgeSquare, dist2, Fin.sum_univ_two, position, tentCorners]
      norm_num
  obtain ⟨s, hb, hcons⟩ : ∃ s, boundary solve List.dedup (built 3 [[0, 1, 2]]) = .ok (some s) ∧
      s.topo.elements[1]?.getD [] = [[1, 2], [2, 0], [0, 1]] := by
    rw [boundary_eq horp]
    exact ⟨(subTopology List.dedup (built 3 [[0, 1, 2]]).boundary.length (built 3 [[0, 1, 2]])
      (bRows (built 3 [[0, 1, 2]]))).toOption.getD ⟨⟨[], [], []⟩, []⟩, by decide +kernel, by decide +kernel⟩
  have hord := C83_in_order_triangles uniqSpec_dedup tent_simplices tent_built hb
  obtain ⟨ms, hms⟩ := C83_exists (n := 0) uniqSpec_dedup tent_simplices hsat tent_built hm hb (by
    rw [hcons]
    refine connected_of_chain fun j hj => ?_
    have hj : j < 2 := by simp at hj; omega
    interval_cases j
    · exact ⟨[2], sharedFace_of_check (by decide +kernel)⟩
    · exact ⟨[0], sharedFace_of_check (by decide +kernel)⟩) hord
  refine ⟨eigh, ratio, minres, nearest, y, ctr, w, y', ctr', s, ms, hs, ⟨hs.sub, hsat, hor,
    atMostTwo_of_check (by decide +kernel), hcon, hmin, hnear, hdel⟩, tent_delaunay (.inr rfl) hs.parent, ?_, ?_, hm, hb, hms, hord⟩
  · have hw3 := w3 3 (by omega)
    have hw4 := w3 4 (by omega)
    have hw5 := w3 5 (by omega)
    have hw6 := w3 6 (by omega)
    have key : ∀ a b c : Nat, [a, b, c] ∈ tentRows → ∀ v < 7, v ≠ a → v ≠ b → v ≠ c →
        power (ctr' [a, b, c].toFinset) (position (tentVertices (7 / 4)) a) (weightAt (some w) a) <
          power (ctr' [a, b, c].toFinset) (position (tentVertices (7 / 4)) v) (weightAt (some w) v) := by
      intro a b c hr v hv ha hb hc
      have hcc := hs.sub.centers [a, b, c].toFinset ⟨⟨a, by simp⟩, [a, b, c], hr, fun _ h => h⟩
      have e1 := hcc.equal a (by simp) b (by simp)
      have e2 := hcc.equal a (by simp) c (by simp)
      generalize ctr' [a, b, c].toFinset = T at *
      simp only [tentRows, List.mem_cons, List.cons.injEq, and_true, List.not_mem_nil, or_false] at hr
      unfold power at e1 e2 ⊢
      rcases hr with ⟨rfl, rfl, rfl⟩ | ⟨rfl, rfl, rfl⟩ | ⟨rfl, rfl, rfl⟩ | ⟨rfl, rfl, rfl⟩ | ⟨rfl, rfl, rfl⟩ |
        ⟨rfl, rfl, rfl⟩ <;> interval_cases v <;> first | omega | skip
      all_goals
        simp [w0, w1, w2, hw3, hw4, hw5, hw6, position, tentVertices, Fin.sum_univ_two] at e1 e2 ⊢
        linarith
    intro l hl l' hl' v hv hvl u hu
    obtain ⟨a, b, c, rfl⟩ := List.length_eq_three.1 (hs.sub.rows l hl).1
    have hv7 : v < 7 := by
      have : ∀ r ∈ tentRows, ∀ v ∈ r, v < 7 := by decide
      exact this l' hl' v hv
    simp only [List.mem_cons, List.not_mem_nil, or_false, not_or] at hvl
    have hcc := hs.sub.centers [a, b, c].toFinset ⟨⟨a, by simp⟩, [a, b, c], hl, fun _ h => h⟩
    rw [hcc.equal u (by simpa using hu) a (by simp)]
    exact key a b c hl v hv7 hvl.1 hvl.2.1 hvl.2.2
  · refine ⟨[2, 6, 3], by decide, fun v => if v = 2 then 23 / 65 else if v = 6 then 42 / 65 else 0, ⟨?_, fun j => ?_⟩, ?_⟩
    · rw [show [2, 6, 3].toFinset = {2, 6, 3} from rfl, Finset.sum_insert (by decide), Finset.sum_pair (by decide)]
      norm_num
    · rw [show [2, 6, 3].toFinset = {2, 6, 3} from rfl, Finset.sum_insert (by decide), Finset.sum_pair (by decide)]
      fin_cases j <;> simp [position, tentVertices]
      norm_num
    · intro v _
      simp only
      split_ifs <;> norm_num

/-! ### a tetrahedron -/

/-- a regular tetrahedron -/
def tetCorners : List (Vec ℝ 3) := [![1, 1, 1], ![1, -1, -1], ![-1, 1, -1], ![-1, -1, 1]]

/-- its fundamental domains -/
def tetRows : List (List Nat) :=
  [[2, 4, 10, 14], [3, 4, 14, 10], [3, 5, 10, 14], [1, 5, 14, 10], [1, 8, 10, 14], [2, 8, 14, 10], [2, 7, 11, 14],
  [0, 7, 14, 11], [0, 6, 11, 14], [3, 6, 14, 11], [3, 4, 11, 14], [2, 4, 14, 11], [0, 9, 12, 14], [1, 9, 14, 12],
  [1, 5, 12, 14], [3, 5, 14, 12], [3, 6, 12, 14], [0, 6, 14, 12], [0, 7, 13, 14], [2, 7, 14, 13], [2, 8, 13, 14],
  [1, 8, 14, 13], [1, 9, 13, 14], [0, 9, 14, 13]]

/-- the vertices of its subdivision: corners, midpoints of edges, centers of faces, and the center -/
noncomputable def tetVertices : List (Vec ℝ 3) :=
  [![1, 1, 1], ![1, -1, -1], ![-1, 1, -1], ![-1, -1, 1], ![-1, 0, 0], ![0, -1, 0], ![0, 0, 1], ![0, 1, 0],
    ![0, 0, -1], ![1, 0, 0], ![-1 / 3, -1 / 3, -1 / 3], ![-1 / 3, 1 / 3, 1 / 3], ![1 / 3, -1 / 3, 1 / 3],
    ![1 / 3, 1 / 3, -1 / 3], ![0, 0, 0]]

theorem tet_simplices : Simplices 4 [[0, 1, 2, 3]] := simplices_of_all (by decide)

theorem tet_built : fromSimplices List.dedup 4 [[0, 1, 2, 3]] = .ok (built 4 [[0, 1, 2, 3]]) := by decide +kernel

theorem tet_divided : subdivideFundamental List.dedup (built 4 [[0, 1, 2, 3]]) true = .ok (built 4 tetRows) := by
  decide +kernel

theorem tet_elements : (built 4 [[0, 1, 2, 3]]).elements =
    [[[0], [1], [2], [3]], [[2, 3], [3, 1], [0, 3], [2, 0], [1, 2], [0, 1]],
      [[1, 2, 3], [3, 2, 0], [3, 0, 1], [1, 0, 2]], [[0, 1, 2, 3]]] := by decide +kernel

theorem tet_nondegenerate : NonDegenerate tetCorners 3 [[0, 1, 2, 3]] := by
  intro l hl
  apply affineIndependent_of
  intro w h1 h2
  have a := h2 0
  have b := h2 1
  have c := h2 2
  rw [List.mem_singleton] at hl
  subst hl
  simp [Fin.sum_univ_four, cornersOf, position, tetCorners] at h1 a b c
  intro i
  fin_cases i <;> simp <;> linarith

set_option maxHeartbeats 4000000 in
theorem tetVertices_nondegenerate : NonDegenerate tetVertices 3 tetRows := by
  intro l hl
  apply affineIndependent_of
  intro w h1 h2
  have a := h2 0
  have b := h2 1
  have c := h2 2
  simp only [tetRows, List.mem_cons, List.not_mem_nil, or_false] at hl
  rcases hl with rfl | rfl | rfl | rfl | rfl | rfl | rfl | rfl | rfl | rfl | rfl | rfl | rfl | rfl | rfl | rfl | rfl | rfl | rfl | rfl | rfl | rfl | rfl | rfl <;>
  · simp [Fin.sum_univ_four, cornersOf, position, tetVertices] at h1 a b c
    intro i
    fin_cases i <;> simp <;> linarith

theorem tet_centers {y : Finset Nat → Nat → ℝ} {ctr : Finset Nat → Fin 3 → ℝ}
    (hc : PowerCenters tetCorners (weightAt none) [[0, 1, 2, 3]] y ctr) :
    subVertices (built 4 [[0, 1, 2, 3]]) 3 ctr = tetVertices := by
  have ext3 : ∀ (u : Fin 3 → ℝ) (p q r : ℝ), u 0 = p → u 1 = q → u 2 = r → u = ![p, q, r] := by
    intro u p q r hp hq hr
    funext i
    fin_cases i
    · exact hp
    · exact hq
    · exact hr
  have e : subVertices (built 4 [[0, 1, 2, 3]]) 3 ctr = [ctr {0}, ctr {1}, ctr {2}, ctr {3}, ctr {2, 3}, ctr {3, 1}, ctr {0, 3}, ctr {2, 0},
      ctr {1, 2}, ctr {0, 1}, ctr {1, 2, 3}, ctr {3, 2, 0}, ctr {3, 0, 1}, ctr {1, 0, 2}, ctr {0, 1, 2, 3}] := by
    unfold subVertices
    rw [tet_elements]
    rfl
  have p0 : ctr {0} = ![1, 1, 1] := by
    rw [center_point (hc {0} ⟨by simp, [0, 1, 2, 3], by simp, by simp⟩)]
    simp [position, tetCorners]
  have p1 : ctr {1} = ![1, -1, -1] := by
    rw [center_point (hc {1} ⟨by simp, [0, 1, 2, 3], by simp, by simp⟩)]
    simp [position, tetCorners]
  have p2 : ctr {2} = ![-1, 1, -1] := by
    rw [center_point (hc {2} ⟨by simp, [0, 1, 2, 3], by simp, by simp⟩)]
    simp [position, tetCorners]
  have p3 : ctr {3} = ![-1, -1, 1] := by
    rw [center_point (hc {3} ⟨by simp, [0, 1, 2, 3], by simp, by simp⟩)]
    simp [position, tetCorners]
  have p4 : ctr {2, 3} = ![-1, 0, 0] := by
    have h := hc {2, 3} ⟨by simp, [0, 1, 2, 3], by simp, by decide⟩
    have a := h.one
    have b0 := h.point 0
    have b1 := h.point 1
    have b2 := h.point 2
    have c1 := h.equal 2 (by simp) 3 (by simp)
    rw [Finset.sum_pair (by decide)] at a b0 b1 b2
    simp [position, tetCorners, weightAt, power, Fin.sum_univ_three] at a b0 b1 b2 c1
    refine ext3 _ _ _ _ ?_ ?_ ?_ <;> linarith
  have p5 : ctr {3, 1} = ![0, -1, 0] := by
    have h := hc {3, 1} ⟨by simp, [0, 1, 2, 3], by simp, by decide⟩
    have a := h.one
    have b0 := h.point 0
    have b1 := h.point 1
    have b2 := h.point 2
    have c1 := h.equal 3 (by simp) 1 (by simp)
    rw [Finset.sum_pair (by decide)] at a b0 b1 b2
    simp [position, tetCorners, weightAt, power, Fin.sum_univ_three] at a b0 b1 b2 c1
    refine ext3 _ _ _ _ ?_ ?_ ?_ <;> linarith
  have p6 : ctr {0, 3} = ![0, 0, 1] := by
    have h := hc {0, 3} ⟨by simp, [0, 1, 2, 3], by simp, by decide⟩
    have a := h.one
    have b0 := h.point 0
    have b1 := h.point 1
    have b2 := h.point 2
    have c1 := h.equal 0 (by simp) 3 (by simp)
    rw [Finset.sum_pair (by decide)] at a b0 b1 b2
    simp [position, tetCorners, weightAt, power, Fin.sum_univ_three] at a b0 b1 b2 c1
    refine ext3 _ _ _ _ ?_ ?_ ?_ <;> linarith
  have p7 : ctr {2, 0} = ![0, 1, 0] := by
    have h := hc {2, 0} ⟨by simp, [0, 1, 2, 3], by simp, by decide⟩
    have a := h.one
    have b0 := h.point 0
    have b1 := h.point 1
    have b2 := h.point 2
    have c1 := h.equal 2 (by simp) 0 (by simp)
    rw [Finset.sum_pair (by decide)] at a b0 b1 b2
    simp [position, tetCorners, weightAt, power, Fin.sum_univ_three] at a b0 b1 b2 c1
    refine ext3 _ _ _ _ ?_ ?_ ?_ <;> linarith
  have p8 : ctr {1, 2} = ![0, 0, -1] := by
    have h := hc {1, 2} ⟨by simp, [0, 1, 2, 3], by simp, by decide⟩
    have a := h.one
    have b0 := h.point 0
    have b1 := h.point 1
    have b2 := h.point 2
    have c1 := h.equal 1 (by simp) 2 (by simp)
    rw [Finset.sum_pair (by decide)] at a b0 b1 b2
    simp [position, tetCorners, weightAt, power, Fin.sum_univ_three] at a b0 b1 b2 c1
    refine ext3 _ _ _ _ ?_ ?_ ?_ <;> linarith
  have p9 : ctr {0, 1} = ![1, 0, 0] := by
    have h := hc {0, 1} ⟨by simp, [0, 1, 2, 3], by simp, by decide⟩
    have a := h.one
    have b0 := h.point 0
    have b1 := h.point 1
    have b2 := h.point 2
    have c1 := h.equal 0 (by simp) 1 (by simp)
    rw [Finset.sum_pair (by decide)] at a b0 b1 b2
    simp [position, tetCorners, weightAt, power, Fin.sum_univ_three] at a b0 b1 b2 c1
    refine ext3 _ _ _ _ ?_ ?_ ?_ <;> linarith
  have p10 : ctr {1, 2, 3} = ![-1 / 3, -1 / 3, -1 / 3] := by
    have h := hc {1, 2, 3} ⟨by simp, [0, 1, 2, 3], by simp, by decide⟩
    have a := h.one
    have b0 := h.point 0
    have b1 := h.point 1
    have b2 := h.point 2
    have c1 := h.equal 1 (by simp) 2 (by simp)
    have c2 := h.equal 1 (by simp) 3 (by simp)
    rw [Finset.sum_insert (by decide), Finset.sum_pair (by decide)] at a b0 b1 b2
    simp [position, tetCorners, weightAt, power, Fin.sum_univ_three] at a b0 b1 b2 c1 c2
    refine ext3 _ _ _ _ ?_ ?_ ?_ <;> linarith
  have p11 : ctr {3, 2, 0} = ![-1 / 3, 1 / 3, 1 / 3] := by
    have h := hc {3, 2, 0} ⟨by simp, [0, 1, 2, 3], by simp, by decide⟩
    have a := h.one
    have b0 := h.point 0
    have b1 := h.point 1
    have b2 := h.point 2
    have c1 := h.equal 3 (by simp) 2 (by simp)
    have c2 := h.equal 3 (by simp) 0 (by simp)
    rw [Finset.sum_insert (by decide), Finset.sum_pair (by decide)] at a b0 b1 b2
    simp [position, tetCorners, weightAt, power, Fin.sum_univ_three] at a b0 b1 b2 c1 c2
    refine ext3 _ _ _ _ ?_ ?_ ?_ <;> linarith
  have p12 : ctr {3, 0, 1} = ![1 / 3, -1 / 3, 1 / 3] := by
    have h := hc {3, 0, 1} ⟨by simp, [0, 1, 2, 3], by simp, by decide⟩
    have a := h.one
    have b0 := h.point 0
    have b1 := h.point 1
    have b2 := h.point 2
    have c1 := h.equal 3 (by simp) 0 (by simp)
    have c2 := h.equal 3 (by simp) 1 (by simp)
    rw [Finset.sum_insert (by decide), Finset.sum_pair (by decide)] at a b0 b1 b2
    simp [position, tetCorners, weightAt, power, Fin.sum_univ_three] at a b0 b1 b2 c1 c2
    refine ext3 _ _ _ _ ?_ ?_ ?_ <;> linarith
  have p13 : ctr {1, 0, 2} = ![1 / 3, 1 / 3, -1 / 3] := by
    have h := hc {1, 0, 2} ⟨by simp, [0, 1, 2, 3], by simp, by decide⟩
    have a := h.one
    have b0 := h.point 0
    have b1 := h.point 1
    have b2 := h.point 2
    have c1 := h.equal 1 (by simp) 0 (by simp)
    have c2 := h.equal 1 (by simp) 2 (by simp)
    rw [Finset.sum_insert (by decide), Finset.sum_pair (by decide)] at a b0 b1 b2
    simp [position, tetCorners, weightAt, power, Fin.sum_univ_three] at a b0 b1 b2 c1 c2
    refine ext3 _ _ _ _ ?_ ?_ ?_ <;> linarith
  have p14 : ctr {0, 1, 2, 3} = ![0, 0, 0] := by
    have h := hc {0, 1, 2, 3} ⟨by simp, [0, 1, 2, 3], by simp, by decide⟩
    have a := h.one
    have b0 := h.point 0
    have b1 := h.point 1
    have b2 := h.point 2
    have c1 := h.equal 0 (by simp) 1 (by simp)
    have c2 := h.equal 0 (by simp) 2 (by simp)
    have c3 := h.equal 0 (by simp) 3 (by simp)
    rw [Finset.sum_insert (by decide), Finset.sum_insert (by decide), Finset.sum_pair (by decide)] at a b0 b1 b2
    simp [position, tetCorners, weightAt, power, Fin.sum_univ_three] at a b0 b1 b2 c1 c2 c3
    refine ext3 _ _ _ _ ?_ ?_ ?_ <;> linarith
  rw [e, p0, p1, p2, p3, p4, p5, p6, p7, p8, p9, p10, p11, p12, p13, p14]
  rfl

/-- C87: a regular tetrahedron meets the hypotheses in space, so its fundamental domains cannot be looked up -/
theorem C87_solid_case : ∃ eigh ratio y ctr w y' ctr',
    SubInput List.dedup eigh ratio 3 [[0, 1, 2, 3]] (built 4 [[0, 1, 2, 3]]) tetCorners none y ctr
      tetRows (built 4 tetRows) tetVertices w y' ctr' ∧
    ∀ solve minres nearest points hints,
      pickFundamental solve List.dedup eigh ratio minres nearest (built 4 [[0, 1, 2, 3]]) tetCorners none points hints =
        .error .assertionError := by
  obtain ⟨y, ctr, hc⟩ := exists_power_centers tet_nondegenerate tet_simplices (weightAt none)
  have hV := tet_centers hc
  obtain ⟨eigh, ratio, w, y', ctr', hs⟩ := C87_applies (D := 3) (m := 2) uniqSpec_dedup tet_simplices tet_built (by simp)
    (V := tetCorners) (by simp [tetCorners]) (by omega) tet_nondegenerate hc tet_divided
    (rows := tetRows) (by decide +kernel) (by rw [hV]; exact tetVertices_nondegenerate)
  rw [hV] at hs
  exact ⟨eigh, ratio, y, ctr, w, y', ctr', hs, fun solve minres nearest points hints =>
    (C87_solid (m := 0) hs solve minres nearest points).1 hints⟩

end Verif.Props
