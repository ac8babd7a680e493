/-
C88: what the weighted averages of a dual 0-form are.
-/
import Verif.Props.WeightedAveraging

set_option linter.unusedSectionVars false

namespace Verif.Props

open Verif Verif.Model Verif.Spec

section

variable {D : Nat} {uniq : List (List Nat) → List (List Nat)}
  {solve : List (List Int) → Option (List Int)}
  {eigh : (n : Nat) → Matrix (Fin n) (Fin n) ℝ → Eigh n ℝ} {ratio : ℝ} {n m N : Nat} {nb : Nat → Nat}
  {simplices : List (List Nat)} {t : Topo} {V : List (Vec ℝ D)} {W : Option (List ℝ)}
  {y : Finset Nat → Nat → ℝ} {ctr : Finset Nat → Fin D → ℝ} {ms : List (Mat Int)} {L : List (Mat ℝ)} {s : Sub}

theorem weighted_output (h : CenterInput uniq eigh ratio (m + 1) simplices t V W y ctr) (hD : m + 1 ≤ D)
    (hor : isOriented solve t = .ok true) (hwc : isWellCentered eigh ratio t V W = .ok true)
    (hms : simplicialDual solve uniq t = .ok ms) (hL : averagingOperators0 ms = .ok L)
    (hE : EvenRows simplices t (m + 1) N nb L) (hN : simplices.length ≤ N) (d0 : List ℝ) :
    (d0.length = N → ∃ out, averageWeighted solve uniq eigh ratio t V W d0 = .ok out ∧ out.length = m + 2 ∧
      out[0]? = some d0 ∧ ∀ i k, i + 1 + k = m + 1 → i + 1 ≤ 5 → out[i + 1]? =
        some ((t.elements[k]?.getD []).map (fun e => cellMean simplices ctr i e fun j => d0[j]?.getD 0) ++
          List.replicate (nb k) 0)) ∧
    (d0.length ≠ N → averageWeighted solve uniq eigh ratio t V W d0 = .error .valueError) := by
  obtain ⟨R, r1, r2, r3⟩ := weighted_operators h hD hor hwc hms hL hE hN
  have hcols : ∀ a ∈ R, a.cols = N := by
    intro a ha
    obtain ⟨i, hi, rfl⟩ := List.mem_iff_getElem.1 ha
    obtain ⟨A, a1, -, a3, -⟩ := r3 i (m + 1 - (i + 1)) (by omega)
    rw [List.getElem?_eq_getElem hi] at a1
    rw [Option.some.inj a1, a3]
  unfold averageWeighted
  rw [r1]
  constructor
  · intro hl
    have hmap : (R.mapM fun a => applyTo a d0) = .ok (R.map fun a => (List.range a.rows).map fun i =>
        ((List.range a.cols).map fun j => a.entry i j * d0[j]?.getD 0).sum) := by
      refine mapM_ok _ _ _ fun a ha => ?_
      unfold applyTo
      rw [if_pos (by rw [hcols a ha, hl])]
    refine ⟨d0 :: R.map fun a => (List.range a.rows).map fun i =>
        ((List.range a.cols).map fun j => a.entry i j * d0[j]?.getD 0).sum, ?_, by simp [r2], rfl, fun i k hk hi => ?_⟩
    · simp only [bind, Except.bind]
      rw [hmap]
    · obtain ⟨A, a1, a2, a3, a4, a5⟩ := r3 i k hk
      rw [List.getElem?_cons_succ, List.getElem?_map, a1, Option.map_some, a2, a3]
      congr 1
      apply List.ext_getElem?
      intro x
      have hn : t.nElements k = (t.elements[k]?.getD []).length := rfl
      rcases Nat.lt_or_ge x (t.nElements k) with hx | hx
      · have he : (t.elements[k]?.getD [])[x]? = some ((t.elements[k]?.getD [])[x]'(by omega)) :=
          List.getElem?_eq_getElem _
        rw [List.getElem?_append_left (by simpa using (by omega : x < (t.elements[k]?.getD []).length)),
          List.getElem?_map, List.getElem?_map, he, List.getElem?_range (by omega)]
        simp only [Option.map_some]
        congr 1
        generalize (t.elements[k]?.getD [])[x]'(by omega) = e at he ⊢
        unfold cellMean
        have : ∀ j, A.entry x j * d0[j]?.getD 0 = if j ∈ Spec.incident simplices e then
            cellWeight ctr i e (simplices[j]?.getD []) * d0[j]?.getD 0 *
            (((Spec.incident simplices e).map fun j => cellWeight ctr i e (simplices[j]?.getD [])).sum)⁻¹ else 0 := by
          intro j
          rw [a5 hi x e he j]
          split_ifs
          · ring
          · rw [zero_mul]
        rw [List.map_congr_left fun j _ => this j, sum_incident e hN, List.sum_map_mul_right, div_eq_mul_inv]
      · rw [List.getElem?_append_right (by simpa [hn] using hx), List.getElem?_map]
        rcases Nat.lt_or_ge x (t.nElements k + nb k) with hx' | hx'
        · rw [List.getElem?_range hx', List.getElem?_replicate, if_pos (by rw [List.length_map]; omega)]
          simp only [Option.map_some]
          congr 1
          rw [List.map_congr_left fun j _ => by rw [a4 x hx j, zero_mul]]
          simp
        · rw [List.getElem?_eq_none (by simpa using hx'), List.getElem?_eq_none (by simp; omega)]
          rfl
  · intro hl
    have hne : R ≠ [] := by
      intro h0
      rw [h0] at r2
      simp at r2
    obtain ⟨a, R', rfl⟩ := List.exists_cons_of_ne_nil hne
    simp only [bind, Except.bind]
    have : applyTo a d0 = .error .valueError := by
      unfold applyTo
      rw [if_neg]
      rw [hcols a (by simp)]
      exact fun h => hl h.symm
    rw [List.mapM_cons]
    simp only [bind, Except.bind]
    rw [this]

/-- C88: on a closed well-centered mesh, every weighted average is the mean of the values on the simplices around the element, with
the weights of its dual cell; these are positive.  `d0` itself comes first; a `d0` of another length is a `ValueError`. -/
theorem C88_closed (h : CenterInput uniq eigh ratio (m + 1) simplices t V W y ctr) (hD : m + 1 ≤ D)
    (hb : boundary solve uniq t = .ok none) (hwc : isWellCentered eigh ratio t V W = .ok true) (d0 : List ℝ) :
    (d0.length = simplices.length → ∃ out, averageWeighted solve uniq eigh ratio t V W d0 = .ok out ∧ out.length = m + 2 ∧
      out[0]? = some d0 ∧ ∀ i k, i + 1 + k = m + 1 → i + 1 ≤ 5 → out[i + 1]? =
        some ((t.elements[k]?.getD []).map fun e => cellMean simplices ctr i e fun j => d0[j]?.getD 0)) ∧
    (d0.length ≠ simplices.length → averageWeighted solve uniq eigh ratio t V W d0 = .error .valueError) := by
  obtain ⟨ms, L, h1, h2, h3⟩ := even_closed h.uniq_ok h.rows h.built hb
  obtain ⟨g1, g2⟩ := weighted_output h hD (oriented_of_boundary hb) hwc h1 h2 h3 (le_refl _) d0
  refine ⟨fun hl => ?_, g2⟩
  obtain ⟨out, o1, o2, o3, o4⟩ := g1 hl
  refine ⟨out, o1, o2, o3, fun i k hk hi => ?_⟩
  rw [o4 i k hk hi]
  simp

/-- C88: on a well-centered mesh with a boundary the means are those over the simplices alone.  The values of `d0` on the boundary
faces `F` are not used, and the cells of the dual of the boundary, which come last in every level, get the value zero. -/
theorem C88_open (h : CenterInput uniq eigh ratio (m + 2) simplices t V W y ctr) (hD : m + 2 ≤ D) (hsat : SatSpec solve)
    (h2 : AtMostTwo simplices) (hb : boundary solve uniq t = .ok (some s)) (hd : simplicialDual solve uniq t = .ok ms)
    (hord : InOrder s.parentIdx) (hwc : isWellCentered eigh ratio t V W = .ok true) :
    ∃ F : List (List Nat), F.Sublist (t.elements[m + 1]?.getD []) ∧ (∀ e ∈ t.elements[m + 1]?.getD [], e ∈ F ↔ BoundaryFace simplices e) ∧
    ∀ d0 : List ℝ,
      (d0.length = simplices.length + F.length → ∃ out, averageWeighted solve uniq eigh ratio t V W d0 = .ok out ∧
        out.length = m + 3 ∧ out[0]? = some d0 ∧ ∀ i k, i + 1 + k = m + 2 → i + 1 ≤ 5 → out[i + 1]? =
          some ((t.elements[k]?.getD []).map (fun e => cellMean simplices ctr i e fun j => d0[j]?.getD 0) ++
            List.replicate (if k = 0 then 0 else (s.topo.elements[k - 1]?.getD []).length) 0)) ∧
      (d0.length ≠ simplices.length + F.length → averageWeighted solve uniq eigh ratio t V W d0 = .error .valueError) := by
  have hor := oriented_of_boundary hb
  obtain ⟨wf, hok⟩ := boundary_sub h.uniq_ok h.rows h.built hor hb
  obtain ⟨P0, new, faces, f1, f2, f3, f4, f5, -⟩ := C09_boundary_elements h.uniq_ok h.rows hsat h.built h2 hor hb
  have hF : faces = bRows t := by
    rw [hok.idx_zero (by omega) (by omega) wf] at f1
    rw [hok.wf.top_eq] at f2
    rw [← f3, ← Option.some.inj f1, ← Option.some.inj f2]
    exact relabel_back _
  subst hF
  obtain ⟨L, l1, l2⟩ := even_open h.uniq_ok h.rows h.built hb hd hord
  exact ⟨bRows t, f4, f5, fun d0 => weighted_output h hD hor hwc hd l1 l2 (by omega) d0⟩

/-- C88: a mesh that is not oriented, or not well-centered, is refused -/
theorem C88_rejects (h : CenterInput uniq eigh ratio n simplices t V W y ctr) (d0 : List ℝ) :
    (isOriented solve t = .ok false → averageWeighted solve uniq eigh ratio t V W d0 = .error .assertionError) ∧
    (isOriented solve t = .ok true → (∃ S, SpansFace simplices S ∧ ∃ v ∈ S, y S v ≤ 0) →
      averageWeighted solve uniq eigh ratio t V W d0 = .error .assertionError) := by
  unfold averageWeighted weightedAverageOperators
  refine ⟨fun ho => by rw [ho]; rfl, fun ho hS => ?_⟩
  obtain ⟨b, hb, hiff⟩ := C61_wellcentered h
  rw [ho, hb]
  have : b = false := by
    rw [Bool.eq_false_iff]
    intro hbt
    obtain ⟨S, h1, v, h2, h3⟩ := hS
    have := hiff.1 hbt S h1 v h2
    linarith
  rw [this]
  rfl

/-! ### what the means do -/

theorem cell_weights (h : CenterInput uniq eigh ratio n simplices t V W y ctr)
    (hwc : isWellCentered eigh ratio t V W = .ok true) {i k : Nat} (hk : i + 1 + k = n) {e : List Nat}
    (he : e ∈ t.elements[k]?.getD []) :
    (∀ j ∈ Spec.incident simplices e, 0 < cellWeight ctr i e (simplices[j]?.getD [])) ∧
      0 < ((Spec.incident simplices e).map fun j => cellWeight ctr i e (simplices[j]?.getD [])).sum := by
  obtain ⟨-, wf⟩ := fromSimplices_wf h.uniq_ok h.rows h.built
  obtain ⟨he1, he2, -⟩ := wf.element_face h.rows (k := k) (by omega) he
  have hpos : ∀ j ∈ Spec.incident simplices e, 0 < cellWeight ctr i e (simplices[j]?.getD []) := by
    intro j hj
    have hjl := incident_lt hj
    have hsub : e ⊆ simplices[j] := by
      have := (List.mem_filter.1 hj).2
      rw [List.getElem?_eq_getElem hjl, Option.getD_some, List.all_eq_true] at this
      exact fun v hv => List.contains_iff_mem.1 (this v hv)
    rw [List.getElem?_eq_getElem hjl, Option.getD_some]
    exact C88_positive h hwc (List.getElem_mem hjl) hsub he2 (by intro h0; rw [h0] at he1; simp at he1) (by omega)
  refine ⟨hpos, ?_⟩
  obtain ⟨x, hx, rfl⟩ := List.mem_iff_getElem.1 he
  have hne := incident_ne wf h.rows (k := k) (by omega) (List.getElem?_eq_getElem hx)
  apply List.sum_pos
  · intro a ha
    obtain ⟨j, hj, rfl⟩ := List.mem_map.1 ha
    exact hpos j hj
  · intro h0
    exact hne (List.map_eq_nil_iff.1 h0)

/-- C88: every mean lies between the least and the largest value on the simplices around the element -/
theorem C88_bounds (h : CenterInput uniq eigh ratio n simplices t V W y ctr)
    (hwc : isWellCentered eigh ratio t V W = .ok true) {i k : Nat} (hk : i + 1 + k = n) {e : List Nat}
    (he : e ∈ t.elements[k]?.getD []) {x : Nat → ℝ} {lo hi : ℝ}
    (hx : ∀ j ∈ Spec.incident simplices e, lo ≤ x j ∧ x j ≤ hi) :
    lo ≤ cellMean simplices ctr i e x ∧ cellMean simplices ctr i e x ≤ hi := by
  obtain ⟨h1, h2⟩ := cell_weights h hwc hk he
  unfold cellMean
  rw [le_div_iff₀ h2, div_le_iff₀ h2, ← List.sum_map_mul_left, ← List.sum_map_mul_left]
  constructor <;>
  · apply List.sum_le_sum
    intro j hj
    have := h1 j hj
    obtain ⟨g1, g2⟩ := hx j hj
    nlinarith

/-- C88: constants are reproduced -/
theorem C88_constant (h : CenterInput uniq eigh ratio n simplices t V W y ctr)
    (hwc : isWellCentered eigh ratio t V W = .ok true) {i k : Nat} (hk : i + 1 + k = n) {e : List Nat}
    (he : e ∈ t.elements[k]?.getD []) {x : Nat → ℝ} {c : ℝ} (hx : ∀ j ∈ Spec.incident simplices e, x j = c) :
    cellMean simplices ctr i e x = c := by
  obtain ⟨h1, h2⟩ := C88_bounds h hwc hk he (x := x) (lo := c) (hi := c) fun j hj => by rw [hx j hj]; exact ⟨le_refl _, le_refl _⟩
  exact le_antisymm h2 h1

/-- C88: on a dual edge, the weight of a simplex is one over the distance of its center from the center of the face -/
theorem C88_edge_weight (ctr : Finset Nat → Fin D → ℝ) {e l : List Nat} (hs : e ⊆ l) (he : e.Nodup)
    (hl : l.length = e.length + 1) : cellWeight ctr 0 e l = 1 / distance (ctr e.toFinset) (ctr l.toFinset) := by
  have hp := diff_append hs he
  have hlen : (l.diff e).length = 1 := by
    have := hp.length_eq
    rw [List.length_append] at this
    omega
  obtain ⟨v, hv⟩ := List.length_eq_one_iff.1 hlen
  rw [hv] at hp
  unfold cellWeight
  rw [hv, show [v].permutations = [[v]] by simp [List.permutations, List.permutationsAux, List.permutationsAux.rec]]
  simp only [List.map_cons, List.map_nil, List.sum_cons, List.sum_nil, add_zero]
  unfold wayWeight
  simp only [List.range_zero, List.map_nil, List.prod_nil, zero_add, List.range_one, List.map_cons, List.prod_cons, mul_one]
  rw [show List.take 1 [v] = [v] from rfl, List.toFinset_eq_of_perm _ _ hp]

/-- C88: on a face between two simplices the mean interpolates linearly between their centers, if the center of the face lies on
the segment between them -/
theorem C88_edge_linear (h : CenterInput uniq eigh ratio (m + 1) simplices t V W y ctr)
    (hwc : isWellCentered eigh ratio t V W = .ok true) {e : List Nat} (he : e ∈ t.elements[m]?.getD []) {a b : Nat}
    (hab : Spec.incident simplices e = [a, b]) {r : ℝ}
    (hr : ∀ c, ctr e.toFinset c = (1 - r) * ctr (simplices[a]?.getD []).toFinset c + r * ctr (simplices[b]?.getD []).toFinset c)
    (hr0 : 0 ≤ r) (hr1 : r ≤ 1) (g : Fin D → ℝ) (g0 : ℝ) :
    cellMean simplices ctr 0 e (fun j => g0 + ∑ c, g c * ctr (simplices[j]?.getD []).toFinset c) =
      g0 + ∑ c, g c * ctr e.toFinset c := by
  obtain ⟨-, wf⟩ := fromSimplices_wf h.uniq_ok h.rows h.built
  obtain ⟨he1, he2, -⟩ := wf.element_face h.rows (k := m) (by omega) he
  obtain ⟨w1, -⟩ := cell_weights h hwc (i := 0) (k := m) (by omega) he
  have hw : ∀ j ∈ Spec.incident simplices e, cellWeight ctr 0 e (simplices[j]?.getD []) =
      1 / distance (ctr e.toFinset) (ctr (simplices[j]?.getD []).toFinset) := by
    intro j hj
    have hjl := incident_lt hj
    have hsub : e ⊆ simplices[j] := by
      have := (List.mem_filter.1 hj).2
      rw [List.getElem?_eq_getElem hjl, Option.getD_some, List.all_eq_true] at this
      exact fun v hv => List.contains_iff_mem.1 (this v hv)
    rw [List.getElem?_eq_getElem hjl, Option.getD_some]
    exact C88_edge_weight ctr hsub he2 (by rw [(h.rows _ (List.getElem_mem hjl)).1, he1])
  rw [hab] at w1 hw
  have wa := w1 a (by simp)
  have wb := w1 b (by simp)
  rw [hw a (by simp)] at wa
  rw [hw b (by simp)] at wb
  unfold cellMean
  rw [hab]
  simp only [List.map_cons, List.map_nil, List.sum_cons, List.sum_nil, add_zero]
  rw [hw a (by simp), hw b (by simp)]
  generalize ctr (simplices[a]?.getD []).toFinset = A at *
  generalize ctr (simplices[b]?.getD []).toFinset = B at *
  generalize ctr e.toFinset = P at *
  obtain rfl : P = fun c => (1 - r) * A c + r * B c := funext hr
  have dA : distance (fun c => (1 - r) * A c + r * B c) A = r * distance A B := by
    unfold distance
    rw [← Real.sqrt_sq hr0, ← Real.sqrt_mul (sq_nonneg r), Real.sqrt_sq hr0]
    congr 1
    unfold dist2
    rw [Finset.mul_sum]
    refine Finset.sum_congr rfl fun c _ => ?_
    ring
  have dB : distance (fun c => (1 - r) * A c + r * B c) B = (1 - r) * distance A B := by
    unfold distance
    have h1 : 0 ≤ 1 - r := by linarith
    rw [← Real.sqrt_sq h1, ← Real.sqrt_mul (sq_nonneg (1 - r)), Real.sqrt_sq h1]
    congr 1
    unfold dist2
    rw [Finset.mul_sum]
    refine Finset.sum_congr rfl fun c _ => ?_
    ring
  rw [dA] at wa ⊢
  rw [dB] at wb ⊢
  have pa := one_div_pos.1 wa
  have pb := one_div_pos.1 wb
  have hd : 0 ≤ distance A B := Real.sqrt_nonneg _
  have hd0 : distance A B ≠ 0 := by
    intro h0
    rw [h0, mul_zero] at pa
    exact lt_irrefl _ pa
  have hr0' : r ≠ 0 := by
    rintro rfl
    rw [zero_mul] at pa
    exact lt_irrefl _ pa
  have hr1' : 1 - r ≠ 0 := by
    intro h0
    rw [h0, zero_mul] at pb
    exact lt_irrefl _ pb
  have hsum : ∑ c, g c * ((1 - r) * A c + r * B c) = (1 - r) * ∑ c, g c * A c + r * ∑ c, g c * B c := by
    rw [Finset.mul_sum, Finset.mul_sum, ← Finset.sum_add_distrib]
    refine Finset.sum_congr rfl fun c _ => ?_
    ring
  rw [hsum]
  generalize ∑ c, g c * A c = x
  generalize ∑ c, g c * B c = z
  field_simp
  ring

end

end Verif.Props
