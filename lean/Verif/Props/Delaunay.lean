/-
C61: weighted circumcenters, the dual edge excess, and the tests for well-centered and pairwise Delaunay
complexes, `pycomplex/complex/simplicial/base.py` and `pycomplex/complex/base.py`.
-/
import Verif.Lemmas.Excess
import Verif.Props.Angles

set_option linter.unusedSectionVars false

namespace Verif.Props

open Verif.Model Verif.Spec Matrix

/-- a complex, weighted or not, whose circumcenters are computed: a topology built from `n`-simplices,
positions (and weights) for all vertices, no degenerate simplex, and no eigenvalue below the tolerance
of the circumcenters -/
structure CenterInput {D : Nat} (uniq : List (List Nat) → List (List Nat))
    (eigh : (n : Nat) → Matrix (Fin n) (Fin n) ℝ → Eigh n ℝ) (ratio : ℝ) (n : Nat)
    (simplices : List (List Nat)) (t : Topo) (V : List (Vec ℝ D)) (W : Option (List ℝ))
    (y : Finset Nat → Nat → ℝ) (ctr : Finset Nat → Fin D → ℝ) : Prop where
  uniq_ok : UniqSpec uniq
  rows : Simplices (n + 1) simplices
  built : fromSimplices uniq (n + 1) simplices = .ok t
  nonempty : simplices ≠ []
  vertices : ∀ l ∈ simplices, ∀ v ∈ l, v < V.length
  weights : ∀ w, W = some w → ∀ l ∈ simplices, ∀ v ∈ l, v < w.length
  eigh_ok : ∀ k M, Mᵀ = M → IsEigh M (eigh k M).v (eigh k M).w
  tolerance : ∀ k ≤ n, EigenvaluesWithin ratio ((t.elements[k]?.getD []).map (cornersOf V (k + 1)))
  nondegenerate : NonDegenerate V n simplices
  centers : PowerCenters V (weightAt W) simplices y ctr

section

variable {D : Nat} {uniq : List (List Nat) → List (List Nat)}
  {solve : List (List Int) → Option (List Int)}
  {eigh : (n : Nat) → Matrix (Fin n) (Fin n) ℝ → Eigh n ℝ} {ratio : ℝ} {n : Nat}
  {simplices : List (List Nat)} {t : Topo} {V : List (Vec ℝ D)} {W : Option (List ℝ)}
  {y : Finset Nat → Nat → ℝ} {ctr : Finset Nat → Fin D → ℝ}

theorem MetricInput.center (h : MetricInput uniq solve eigh ratio n simplices t V y ctr) :
    CenterInput uniq eigh ratio n simplices t V none y ctr where
  uniq_ok := h.uniq_ok
  rows := h.rows
  built := h.built
  nonempty := h.nonempty
  vertices := h.vertices
  weights := by simp
  eigh_ok := h.eigh_ok
  tolerance := h.tolerance.level
  nondegenerate := h.nondegenerate
  centers := h.centers.power

/-- C61: `primal_barycentric` and `primal_position` of all dimensions: the weighted circumcenters, and
their coordinates with respect to the corners of the element, in the order of the corners -/
theorem C61_centers (h : CenterInput uniq eigh ratio n simplices t V W y ctr) :
    primalBarycentric eigh ratio t V W = .ok ((List.range (n + 1)).map fun k =>
        (t.elements[k]?.getD []).map fun e => e.map (y e.toFinset)) ∧
      primalPositions eigh ratio t V W = .ok ((List.range (n + 1)).map fun k =>
        (t.elements[k]?.getD []).map fun e => ctr e.toFinset) := by
  obtain ⟨hn, wf⟩ := fromSimplices_wf h.uniq_ok h.rows h.built
  exact ⟨primalBarycentric_ok wf h.rows h.nonempty h.vertices h.weights h.eigh_ok h.tolerance h.nondegenerate
      h.centers,
    primalPositions_weights wf h.rows h.nonempty h.vertices h.weights h.eigh_ok h.tolerance h.nondegenerate
      h.centers⟩

/-- C61: the dual edge excess: for slot `c` of a simplex the squared distance of its center from the
center of the face in that slot, with the sign of the coordinate of corner `c`.  Slot `c` holds the
face opposite to corner `c`, but for edges it holds corner `c`. -/
theorem C61_excess (h : CenterInput uniq eigh ratio n simplices t V W y ctr) (signed : Bool) :
    dualEdgeExcess eigh ratio t V W signed = .ok (simplices.map fun l => (List.range (n + 1)).map fun c =>
      dist2 (ctr l.toFinset) (ctr (l.eraseIdx (oppositeCorner (n - 1) c)).toFinset) *
        if signed then Real.sign (y l.toFinset (l[c]?.getD 0)) else 1) := by
  obtain ⟨hn, wf⟩ := fromSimplices_wf h.uniq_ok h.rows h.built
  obtain ⟨m, rfl⟩ : ∃ m, n = m + 1 := ⟨n - 1, by omega⟩
  obtain ⟨hb, hp⟩ := C61_centers h
  obtain ⟨hB, -, hs⟩ := wf.slots
  have hBm : t.boundary[m]? = some (t.boundary[m]?.getD []) := by
    rw [List.getElem?_eq_getElem (by rw [wf.lenB]; omega), Option.getD_some]
  have hl1 : lastOf t.boundary = .ok (t.boundary[m]?.getD []) := lastOf_eq (by rw [wf.lenB]) hBm
  have hl2 : lastOf ((List.range (m + 1 + 1)).map fun k =>
      (t.elements[k]?.getD []).map fun e => ctr e.toFinset) = .ok (simplices.map fun e => ctr e.toFinset) := by
    refine lastOf_eq (k := m + 1) (by simp) ?_
    rw [List.getElem?_map, List.getElem?_range (by omega)]
    simp only [Option.map_some, wf.top_eq, Option.getD_some]
  have hl3 : lastButOne ((List.range (m + 1 + 1)).map fun k =>
      (t.elements[k]?.getD []).map fun e => ctr e.toFinset) =
      .ok ((t.elements[m]?.getD []).map fun e => ctr e.toFinset) := by
    refine lastButOne_eq (k := m) (by simp) ?_
    rw [List.getElem?_map, List.getElem?_range (by omega)]
    rfl
  have hl4 : lastOf ((List.range (m + 1 + 1)).map fun k =>
      (t.elements[k]?.getD []).map fun e => e.map (y e.toFinset)) =
      .ok (simplices.map fun e => e.map (y e.toFinset)) := by
    refine lastOf_eq (k := m + 1) (by simp) ?_
    rw [List.getElem?_map, List.getElem?_range (by omega)]
    simp only [Option.map_some, wf.top_eq, Option.getD_some]
  set B := t.boundary[m]?.getD [] with hBdef
  have hzip : (simplices.map fun e => ctr e.toFinset).zip B =
      (List.range simplices.length).map fun j => (ctr (simplices[j]?.getD []).toFinset, B[j]?.getD []) := by
    apply List.ext_getElem
    · simp [hB]
    · intro j h1 h2
      simp at h1
      simp [h1]
  have hdist : ((simplices.map fun e : List Nat => ctr e.toFinset).zip B).mapM (fun cb : Vec ℝ D × List Nat =>
      cb.2.mapM fun i => do
        let f ← vertexAt ((t.elements[m]?.getD []).map fun e : List Nat => ctr e.toFinset) i
        let delta : Vec ℝ D := fun j => cb.1 j - f j
        Except.ok (dot delta delta)) =
      .ok (simplices.map fun l : List Nat => (List.range (m + 2)).map fun c =>
        dist2 (ctr l.toFinset) (ctr (l.eraseIdx (oppositeCorner m c)).toFinset)) := by
    rw [hzip, mapM_map_ok _ _ (fun j => (List.range (m + 2)).map fun c =>
      dist2 (ctr (simplices[j]?.getD []).toFinset)
        (ctr ((simplices[j]?.getD []).eraseIdx (oppositeCorner m c)).toFinset))]
    · congr 1
      apply List.ext_getElem
      · simp
      · intro j h1 h2
        have hj : j < simplices.length := by simpa using h2
        simp [hj]
    · intro j hj
      have hj := List.mem_range.1 hj
      obtain ⟨b, o, hbj, -, lb, -, hc⟩ := hs j _ (List.getElem?_eq_getElem hj)
      simp only [hbj, List.getElem?_eq_getElem hj, Option.getD_some]
      have hbr : b = (List.range (m + 2)).map fun c => b[c]?.getD 0 := by
        apply List.ext_getElem
        · simp [lb]
        · intro c h1 h2
          simp [h1]
      rw [hbr, mapM_map_ok]
      intro c hcm
      obtain ⟨i, e, e1, e2, e3⟩ := hc c (List.mem_range.1 hcm)
      rw [e1, Option.getD_some]
      have : vertexAt ((t.elements[m]?.getD []).map fun e : List Nat => ctr e.toFinset) i = .ok (ctr e.toFinset) := by
        unfold vertexAt
        simp [e2]
      rw [this, toFinset_perm e3]
      simp only [bind, Except.bind]
      congr 1
      simp only [dot, dist2, pow_two]
  unfold dualEdgeExcess
  rw [hp]
  simp only [bind, Except.bind] at hdist ⊢
  rw [hl1, hl2, hl3]
  simp only
  rw [hdist]
  simp only
  cases signed with
  | false => simp
  | true =>
    rw [hb]
    simp only [if_true]
    rw [hl4]
    simp only
    congr 1
    apply List.ext_getElem
    · simp
    · intro j h1 h2
      have hj : j < simplices.length := by simpa using h2
      rw [List.getElem_zipWith, List.getElem_map, List.getElem_map, List.getElem_map]
      have hlen := (h.rows _ (List.getElem_mem hj)).1
      apply List.ext_getElem
      · simp [hlen]
      · intro c h3 h4
        have hc : c < simplices[j].length := by rw [hlen]; simpa using h4
        simp [List.getElem?_eq_getElem hc]

/-- C61: `remap_boundary_N` adds, for every face, the values in the slots of the simplices that hold the
face, with the orientation of the face in the simplex if `oriented` -/
theorem C61_remap (hu : UniqSpec uniq) (hs : Simplices (n + 1) simplices)
    (hb : fromSimplices uniq (n + 1) simplices = .ok t) (oriented : Bool) (φ : Nat → Nat → ℝ) :
    ∃ L, remapBoundaryN t ((List.range simplices.length).map fun j => (List.range (n + 1)).map (φ j)) oriented =
        .ok L ∧ L.length = t.nElements (n - 1) ∧
      ∀ (x : Nat) (e : List Nat), (t.elements[n - 1]?.getD [])[x]? = some e →
        L[x]? = some ((List.range simplices.length).map fun j => ((List.range (n + 1)).map fun c =>
          if ((simplices[j]?.getD []).eraseIdx (oppositeCorner (n - 1) c)).Perm e then
            φ j c * (if oriented then ((((t.orientation[n - 1]?.getD [])[j]?.getD [])[c]?.getD 0 : Int) : ℝ) else 1)
          else 0).sum).sum := by
  obtain ⟨hn, wf⟩ := fromSimplices_wf hu hs hb
  obtain ⟨m, rfl⟩ : ∃ m, n = m + 1 := ⟨n - 1, by omega⟩
  simp only [Nat.add_sub_cancel]
  obtain ⟨hB, hO, hsl⟩ := wf.slots
  have hl1 : lastOf t.boundary = .ok (t.boundary[m]?.getD []) := lastOf_eq (by rw [wf.lenB])
    (by rw [List.getElem?_eq_getElem (by rw [wf.lenB]; omega), Option.getD_some])
  have hl2 : lastOf t.orientation = .ok (t.orientation[m]?.getD []) := lastOf_eq (by rw [wf.lenO])
    (by rw [List.getElem?_eq_getElem (by rw [wf.lenO]; omega), Option.getD_some])
  set O := t.orientation[m]?.getD [] with hOd
  set ψ : Nat → Nat → ℝ := fun j c => φ j c * (if oriented then (((O[j]?.getD [])[c]?.getD 0 : Int) : ℝ) else 1)
    with hψ
  have hval : remapBoundaryN t ((List.range simplices.length).map fun j => (List.range (m + 1 + 1)).map (φ j))
      oriented = .ok (groupSum (t.boundary[m]?.getD []).flatten
        ((List.range simplices.length).map fun j => (List.range (m + 2)).map (ψ j)).flatten) := by
    unfold remapBoundaryN
    rw [hl1]
    simp only [bind, Except.bind]
    cases horient : oriented with
    | false =>
      simp only [Bool.false_eq_true, if_false, hψ, horient, mul_one]
    | true =>
      simp only [if_true]
      rw [hl2]
      simp only
      congr 3
      apply List.ext_getElem
      · simp [hO]
      · intro j h1 h2
        have hj : j < simplices.length := by simpa using h2
        have hjo : j < O.length := by omega
        obtain ⟨b, o, -, ho, -, lo, -⟩ := hsl j _ (List.getElem?_eq_getElem hj)
        rw [List.getElem?_eq_getElem hjo] at ho
        have ho := Option.some.inj ho
        rw [List.getElem_zipWith, List.getElem_map, List.getElem_map, List.getElem_range]
        apply List.ext_getElem
        · simp [ho, lo]
        · intro c h3 h4
          have hc : c < O[j].length := by rw [ho, lo]; simpa using h4
          simp [hψ, horient, List.getElem?_eq_getElem hjo, List.getElem?_eq_getElem hc]
  have hfl : ((List.range simplices.length).map fun j => (List.range (m + 2)).map (ψ j)).flatten =
      (cells simplices.length (m + 2)).map fun p => ψ p.1 p.2 := by
    unfold cells
    rw [List.map_flatMap]
    simp only [List.flatMap, List.map_map]
    rfl
  rw [hval, hfl, wf.boundary_cells, groupSum_eq _ _ _ wf.boundary_keys]
  refine ⟨_, rfl, by simp [Topo.nElements], fun x e hx => ?_⟩
  rw [List.getElem?_map, List.getElem?_range (List.getElem?_eq_some_iff.1 hx).1, Option.map_some]
  congr 1
  rw [sum_filter_real, sum_cells]
  apply congrArg List.sum
  apply List.map_congr_left
  intro j hj
  have hj := List.mem_range.1 hj
  apply congrArg List.sum
  apply List.map_congr_left
  intro c hc
  simp only [wf.slot_iff (List.getElem?_eq_getElem hj) (List.mem_range.1 hc) hx, List.getElem?_eq_getElem hj,
    Option.getD_some, hψ]

/-- C61: `remap_boundary_0` adds, for every vertex, the values in the slots of the corners of the simplices
that are this vertex -/
theorem C61_remap_vertex (hu : UniqSpec uniq) (hs : Simplices (n + 1) simplices)
    (hb : fromSimplices uniq (n + 1) simplices = .ok t) (φ : Nat → Nat → ℝ) :
    ∃ L, remapBoundary0 t ((List.range simplices.length).map fun j => (List.range (n + 1)).map (φ j)) = .ok L ∧
      L.length = t.nElements 0 ∧ ∀ v < t.nElements 0,
        L[v]? = some ((List.range simplices.length).map fun j => ((List.range (n + 1)).map fun c =>
          if (simplices[j]?.getD [])[c]?.getD 0 = v then φ j c else 0).sum).sum := by
  obtain ⟨hn, wf⟩ := fromSimplices_wf hu hs hb
  have hl1 : lastOf t.elements = .ok simplices := lastOf_eq wf.lenE wf.top_eq
  have hfl : ((List.range simplices.length).map fun j => (List.range (n + 1)).map (φ j)).flatten =
      (cells simplices.length (n + 1)).map fun p => φ p.1 p.2 := by
    unfold cells
    rw [List.map_flatMap]
    simp only [List.flatMap, List.map_map]
    rfl
  have hkeys := flatten_cells 0 (A := simplices) rfl (fun r hr => (hs r hr).1)
  have hmem : ∀ x, x ∈ (cells simplices.length (n + 1)).map (fun p => (simplices[p.1]?.getD [])[p.2]?.getD 0) ↔
      x < t.nElements 0 := by
    intro x
    rw [← hkeys, List.mem_flatten]
    constructor
    · rintro ⟨l, hl, hx⟩
      have h1 := wf.elIdx_vertex hn hs hl hx
      obtain ⟨-, e, h2, -⟩ := elIdx_get (wf.hasFace hs (k := 0) (by omega) hl
        (List.singleton_subperm_iff.2 hx) rfl)
      rw [h1] at h2
      exact (List.getElem?_eq_some_iff.1 h2).1
    · intro hx
      have hx : x < (t.elements[0]?.getD []).length := hx
      obtain ⟨-, -, l, hl, hs'⟩ := wf.element_face hs (Nat.zero_le n) (List.getElem_mem hx)
      have h1 := wf.vertex hn (List.getElem?_eq_getElem hx)
      rw [h1] at hs'
      exact ⟨l, hl, hs' (by simp)⟩
  unfold remapBoundary0
  rw [hl1]
  simp only [bind, Except.bind]
  rw [hkeys, hfl, groupSum_eq _ _ _ hmem]
  refine ⟨_, rfl, by simp, fun v hv => ?_⟩
  rw [List.getElem?_map, List.getElem?_range hv, Option.map_some]
  congr 1
  rw [sum_filter_real, sum_cells]

/-! ### The meaning of the excess -/

/-- the signed square of the distance of a center from a face, as seen from the opposite corner -/
theorem signed_distance {w : Nat → ℝ} {F : Finset Nat} {v : Nat} (hv : v ∉ F) {y z : Nat → ℝ}
    {c c' g : Fin D → ℝ} (hc : PowerCoords V w (insert v F) y c) (hc' : PowerCoords V w F z c')
    (hg : IsHeight V F (position V v) g) :
    dist2 c c' * Real.sign (y v) = y v * |y v| * innerProd g g := by
  have h1 := hg.center hv hc hc'
  have h2 : dist2 c c' = innerProd (c - c') (c - c') := by
    simp only [dist2, innerProd, Pi.sub_apply, pow_two]
  rw [h2, h1, ip_smul_left, ip_comm, ip_smul_left]
  rcases lt_trichotomy (y v) 0 with h0 | h0 | h0
  · rw [Real.sign_of_neg h0, abs_of_neg h0]
    ring
  · rw [h0]
    simp
  · rw [Real.sign_of_pos h0, abs_of_pos h0]
    ring

theorem erase_insert {l : List Nat} (hl : l.Nodup) {c : Nat} (hc : c < l.length) :
    l[c] ∉ (l.eraseIdx c).toFinset ∧ insert l[c] (l.eraseIdx c).toFinset = l.toFinset := by
  have hp := eraseIdx_append_perm hc
  have hn := hp.nodup_iff.2 hl
  constructor
  · rw [List.mem_toFinset]
    intro h
    exact (List.nodup_append.1 hn).2.2 _ h _ (by simp) rfl
  · rw [← toFinset_perm hp, List.toFinset_append]
    ext u
    simp

/-- C61: from two dimensions on, the entry of corner `c` is the square of the height of the corner over
the opposite face, scaled by the coordinate of the corner times its absolute value: positive if the
center lies on the same side of the face as the corner, and negative on the other side -/
theorem C61_depth (h : CenterInput uniq eigh ratio n simplices t V W y ctr) (hn : 2 ≤ n) {l : List Nat}
    (hl : l ∈ simplices) {c : Nat} (hc : c < l.length) :
    (∃ g, IsHeight V (l.eraseIdx c).toFinset (position V l[c]) g ∧ 0 < innerProd g g) ∧
    ∀ g, IsHeight V (l.eraseIdx c).toFinset (position V l[c]) g →
      dist2 (ctr l.toFinset) (ctr (l.eraseIdx (oppositeCorner (n - 1) c)).toFinset) *
        Real.sign (y l.toFinset (l[c]?.getD 0)) =
      y l.toFinset l[c] * |y l.toFinset l[c]| * innerProd g g := by
  obtain ⟨hll, hln⟩ := h.rows l hl
  have hop : oppositeCorner (n - 1) c = c := by
    unfold oppositeCorner
    rw [if_neg (by omega)]
  have hlen : (l.eraseIdx c).length = n := by
    rw [List.length_eraseIdx_of_lt hc, hll]
    rfl
  have hne : l.eraseIdx c ≠ [] := by
    intro h0
    rw [h0] at hlen
    simp at hlen
    omega
  have hsub : l.eraseIdx c ⊆ l := (List.eraseIdx_sublist l c).subset
  obtain ⟨h1, h2⟩ := erase_insert hln hc
  have hface := spansFace_of_subset hl hsub hne
  have hfull := spansFace_of_subset hl (List.Subset.refl l) (List.ne_nil_of_mem (List.getElem_mem hc))
  refine ⟨h.nondegenerate.height h.rows h1 hface.1 (h2.symm ▸ hfull), fun g hg => ?_⟩
  rw [hop, List.getElem?_eq_getElem hc, Option.getD_some]
  refine signed_distance h1 (w := weightAt W) ?_ (h.centers _ hface) hg
  rw [h2]
  exact h.centers _ hfull

/-- the simplices around a face -/
def incident (simplices : List (List Nat)) (e : List Nat) : List (List Nat) :=
  simplices.filter fun l => decide (e ⊆ l)

/-- the sums of the excess over the faces -/
theorem excess_sums (h : CenterInput uniq eigh ratio n simplices t V W y ctr) (hn : 2 ≤ n) :
    ∃ X L, dualEdgeExcess eigh ratio t V W true = .ok X ∧ remapBoundaryN t X false = .ok L ∧
      L.length = t.nElements (n - 1) ∧
      ∀ (x : Nat) (e : List Nat), (t.elements[n - 1]?.getD [])[x]? = some e →
        L[x]? = some ((incident simplices e).map fun l => dist2 (ctr l.toFinset) (ctr e.toFinset) *
          Real.sign (y l.toFinset (missing l e))).sum := by
  obtain ⟨hn1, wf⟩ := fromSimplices_wf h.uniq_ok h.rows h.built
  obtain ⟨L, hL, hlen, hx⟩ := C61_remap h.uniq_ok h.rows h.built false (fun j c =>
    dist2 (ctr (simplices[j]?.getD []).toFinset)
      (ctr ((simplices[j]?.getD []).eraseIdx (oppositeCorner (n - 1) c)).toFinset) *
        Real.sign (y (simplices[j]?.getD []).toFinset ((simplices[j]?.getD [])[c]?.getD 0)))
  have hX := C61_excess h true
  simp only [if_true] at hX
  refine ⟨_, L, hX, ?_, hlen, fun x e he => ?_⟩
  · rw [← hL]
    congr 1
    apply List.ext_getElem
    · simp
    · intro j h1 h2
      have hj : j < simplices.length := by simpa using h2
      simp [hj]
  · rw [hx x e he]
    congr 1
    obtain ⟨he1, he2, -⟩ := wf.element_face h.rows (Nat.sub_le n 1) (List.mem_of_getElem? he)
    have he1 : e.length = n := by omega
    unfold incident
    rw [sum_filter_real]
    apply congrArg List.sum
    apply List.ext_getElem
    · simp
    · intro j h1 h2
      have hj : j < simplices.length := by simpa using h2
      rw [List.getElem_map, List.getElem_map, List.getElem_range]
      simp only [List.getElem?_eq_getElem hj, Option.getD_some, Bool.false_eq_true, if_false, mul_one]
      obtain ⟨hll, hln⟩ := h.rows _ (List.getElem_mem hj)
      have hop : ∀ c, oppositeCorner (n - 1) c = c := by
        intro c
        unfold oppositeCorner
        rw [if_neg (by omega)]
      simp only [hop]
      rw [← sum_slots hln hll he1 he2 fun v => dist2 (ctr simplices[j].toFinset) (ctr e.toFinset) *
        Real.sign (y simplices[j].toFinset v)]
      apply congrArg List.sum
      apply List.map_congr_left
      intro c _
      by_cases hp : (simplices[j].eraseIdx c).Perm e
      · rw [if_pos hp, if_pos hp, toFinset_perm hp]
      · rw [if_neg hp, if_neg hp]

/-- the corner that a face lacks, and the height of the corner -/
theorem CenterInput.over (h : CenterInput uniq eigh ratio n simplices t V W y ctr) (hn : 1 ≤ n) {l e : List Nat}
    (hl : l ∈ simplices) (hs : e ⊆ l) (he1 : e.length = n) (he2 : e.Nodup) :
    missing l e ∉ e.toFinset ∧ insert (missing l e) e.toFinset = l.toFinset ∧ missing l e ∈ l ∧
      PowerCoords V (weightAt W) (insert (missing l e) e.toFinset) (y l.toFinset) (ctr l.toFinset) ∧
      PowerCoords V (weightAt W) e.toFinset (y e.toFinset) (ctr e.toFinset) ∧
      ∃ g, IsHeight V e.toFinset (position V (missing l e)) g ∧ 0 < innerProd g g := by
  obtain ⟨hll, hln⟩ := h.rows l hl
  obtain ⟨-, hp⟩ := missing_spec hll he1 he2 hs
  have hnd := hp.nodup_iff.2 hln
  have h1 : missing l e ∉ e.toFinset := by
    rw [List.mem_toFinset]
    intro hm
    exact (List.nodup_append.1 hnd).2.2 _ hm _ (by simp) rfl
  have h2 : insert (missing l e) e.toFinset = l.toFinset := by
    rw [← toFinset_perm hp, List.toFinset_append]
    ext u
    simp
  have hne : e ≠ [] := by
    intro h0
    rw [h0] at he1
    simp at he1
    omega
  have hmem : missing l e ∈ l := hp.mem_iff.1 (by simp)
  have hface := spansFace_of_subset hl hs hne
  have hfull := spansFace_of_subset hl (List.Subset.refl l) (List.ne_nil_of_mem hmem)
  exact ⟨h1, h2, hmem, h2.symm ▸ h.centers _ hfull, h.centers _ hface,
    h.nondegenerate.height h.rows h1 hface.1 (h2.symm ▸ hfull)⟩

theorem signed_square_pos {x : ℝ} : 0 < x * |x| ↔ 0 < x := by
  rcases lt_trichotomy x 0 with h | h | h
  · rw [abs_of_neg h]
    constructor
    · intro h1
      nlinarith
    · intro h1
      linarith
  · simp [h]
  · rw [abs_of_pos h]
    constructor
    · intro _
      exact h
    · intro _
      positivity

theorem signed_square_add {x z : ℝ} : 0 < x * |x| + z * |z| ↔ 0 < x + z := by
  rcases le_or_gt 0 x with hx | hx <;> rcases le_or_gt 0 z with hz | hz
  · rw [abs_of_nonneg hx, abs_of_nonneg hz]
    constructor
    · intro h
      by_contra h1
      have : x = 0 ∧ z = 0 := ⟨by linarith, by linarith⟩
      rw [this.1, this.2] at h
      simp at h
    · intro h
      rcases lt_or_eq_of_le hx with h1 | h1
      · have := mul_pos h1 h1
        nlinarith
      · rw [← h1] at h ⊢
        rw [zero_add] at h
        rw [zero_mul, zero_add]
        exact mul_pos h h
  · rw [abs_of_nonneg hx, abs_of_neg hz]
    rw [show x * x + z * -z = (x + z) * (x - z) by ring]
    exact mul_pos_iff_of_pos_right (by linarith)
  · rw [abs_of_neg hx, abs_of_nonneg hz]
    rw [show x * -x + z * z = (x + z) * (z - x) by ring]
    exact mul_pos_iff_of_pos_right (by linarith)
  · rw [abs_of_neg hx, abs_of_neg hz]
    constructor
    · intro h
      nlinarith
    · intro h
      linarith

/-- C61: what `is_pairwise_delaunay` decides, from two dimensions on, if no face lies in more than two
simplices and if two simplices with a common face lie on different sides of it: for every face between
two simplices the corner of the second one lies outside the (weighted) circumsphere of the first, and for
every other face the circumcenter lies on the inner side -/
theorem C61_delaunay (h : CenterInput uniq eigh ratio n simplices t V W y ctr) (hn : 2 ≤ n)
    (hman : ∀ e ∈ t.elements[n - 1]?.getD [], (incident simplices e).length ≤ 2)
    (hopp : ∀ e ∈ t.elements[n - 1]?.getD [], ∀ l l', incident simplices e = [l, l'] →
      OppositeSide V e.toFinset (position V (missing l e)) (position V (missing l' e))) :
    ∃ b, isPairwiseDelaunay eigh ratio t V W = .ok b ∧
      (b = true ↔ ∀ e ∈ t.elements[n - 1]?.getD [],
        (∀ l, incident simplices e = [l] → 0 < y l.toFinset (missing l e)) ∧
        (∀ l l', incident simplices e = [l, l'] → ∀ u ∈ e,
          power (ctr l.toFinset) (position V u) (weightAt W u) <
            power (ctr l.toFinset) (position V (missing l' e)) (weightAt W (missing l' e)))) := by
  obtain ⟨hn1, wf⟩ := fromSimplices_wf h.uniq_ok h.rows h.built
  obtain ⟨X, L, hX, hL, hlen, hx⟩ := excess_sums h hn
  unfold isPairwiseDelaunay
  rw [hX]
  simp only [bind, Except.bind]
  rw [hL]
  refine ⟨_, rfl, ?_⟩
  rw [List.all_eq_true]
  have key : ∀ e ∈ t.elements[n - 1]?.getD [],
      (0 < ((incident simplices e).map fun l => dist2 (ctr l.toFinset) (ctr e.toFinset) *
          Real.sign (y l.toFinset (missing l e))).sum ↔
        (∀ l, incident simplices e = [l] → 0 < y l.toFinset (missing l e)) ∧
        (∀ l l', incident simplices e = [l, l'] → ∀ u ∈ e,
          power (ctr l.toFinset) (position V u) (weightAt W u) <
            power (ctr l.toFinset) (position V (missing l' e)) (weightAt W (missing l' e)))) := by
    intro e he
    obtain ⟨he1, he2, l0, hl0, hs0⟩ := wf.element_face h.rows (Nat.sub_le n 1) he
    have he1 : e.length = n := by omega
    have hin : ∀ l ∈ incident simplices e, l ∈ simplices ∧ e ⊆ l := by
      intro l hl
      have := List.mem_filter.1 hl
      exact ⟨this.1, by simpa using this.2⟩
    have hlen2 := hman e he
    have hopp := hopp e he
    have hmem0 : l0 ∈ incident simplices e := List.mem_filter.2 ⟨hl0, by simpa using hs0⟩
    generalize incident simplices e = I at *
    match I, hlen2, hin, hopp, hmem0 with
    | [], _, _, _, h0 => simp at h0
    | [l], _, hin, _, _ =>
      obtain ⟨hl, hs⟩ := hin l (by simp)
      obtain ⟨a1, -, -, a3, a4, g, hg, hg0⟩ := h.over hn1 hl hs he1 he2
      simp only [List.map_cons, List.map_nil, List.sum_cons, List.sum_nil, add_zero]
      rw [signed_distance a1 a3 a4 hg, mul_pos_iff_of_pos_right hg0, signed_square_pos]
      constructor
      · intro hy
        refine ⟨fun l' hl' => ?_, fun l' l'' hl' => by simp at hl'⟩
        simp only [List.cons.injEq, and_true] at hl'
        subst hl'
        exact hy
      · intro hy
        exact hy.1 l rfl
    | [l, l'], _, hin, hopp, _ =>
      obtain ⟨hl, hs⟩ := hin l (by simp)
      obtain ⟨hl', hs'⟩ := hin l' (by simp)
      obtain ⟨a1, -, -, a3, a4, g, hg, hg0⟩ := h.over hn1 hl hs he1 he2
      obtain ⟨b1, -, -, b3, b4, -⟩ := h.over hn1 hl' hs' he1 he2
      obtain ⟨a, s, hs0, hs1, hq⟩ := hopp l l' rfl
      have hg' := hg.opposite hs1 hq
      simp only [List.map_cons, List.map_nil, List.sum_cons, List.sum_nil, add_zero]
      rw [signed_distance a1 a3 a4 hg, signed_distance b1 b3 b4 hg', ip_smul_left,
        ip_comm g fun j => s * g j, ip_smul_left]
      have hpow := fun u (hu : u ∈ e.toFinset) => power_beyond a1 b1 a3 b3 a4 hg hs1 hq hu
      set p := y l.toFinset (missing l e) with hp
      set q := y l'.toFinset (missing l' e) with hq'
      have hsum : p * |p| * innerProd g g + q * |q| * (s * (s * innerProd g g)) =
          (p * |p| + (-s * q) * |-s * q|) * innerProd g g := by
        rw [abs_mul, abs_of_pos (show 0 < -s by linarith)]
        ring
      rw [hsum, mul_pos_iff_of_pos_right hg0, signed_square_add]
      have hfac : ∀ u ∈ e, (power (ctr l.toFinset) (position V u) (weightAt W u) <
          power (ctr l.toFinset) (position V (missing l' e)) (weightAt W (missing l' e)) ↔ 0 < p + -s * q) := by
        intro u hu
        have h1 := hpow u (List.mem_toFinset.2 hu)
        rw [← sub_pos, h1, mul_pos_iff_of_pos_right hg0, show p - s * q = p + -s * q by ring]
        exact mul_pos_iff_of_pos_left (by linarith)
      constructor
      · intro hy
        refine ⟨fun l'' hl'' => by simp at hl'', fun l1 l2 h12 u hu => ?_⟩
        simp only [List.cons.injEq, and_true] at h12
        obtain ⟨rfl, rfl⟩ := h12
        exact (hfac u hu).2 hy
      · intro hy
        obtain ⟨u, hu⟩ := List.exists_mem_of_ne_nil e (by
          intro h0
          rw [h0] at he1
          simp at he1
          omega)
        exact (hfac u hu).1 (hy.2 l l' rfl u hu)
  constructor
  · intro hall e he
    obtain ⟨x, hx1, rfl⟩ := List.getElem_of_mem he
    refine (key _ he).1 ?_
    have h1 := hx x _ (List.getElem?_eq_getElem hx1)
    have h2 := hall _ (List.mem_of_getElem? h1)
    simpa using h2
  · intro hall z hz
    obtain ⟨x, hx1, rfl⟩ := List.getElem_of_mem hz
    have hx2 : x < (t.elements[n - 1]?.getD []).length := by rw [hlen] at hx1; exact hx1
    have h1 := hx x _ (List.getElem?_eq_getElem hx2)
    rw [List.getElem?_eq_getElem hx1] at h1
    have h2 := (key _ (List.getElem_mem hx2)).2 (hall _ (List.getElem_mem hx2))
    rw [Option.some.inj h1]
    simpa using h2

end

end Verif.Props
