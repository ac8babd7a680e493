/-
Simplicial meshes closed along their boundary.
-/
import Verif.Lemmas.DualMeans
import Verif.Props.Dual
import Verif.Spec.DualAveraging

set_option linter.unusedSectionVars false

namespace Verif

open Verif.Model Verif.Spec Verif.Props

/-- an increasing list is what a selector picks -/
theorem selector_picks {t : Topo} {s : Sub} {k : Nat} (hlt : ∀ c ∈ s.parentIdx[k]?.getD [], c < t.nElements k)
    (hord : InOrder s.parentIdx) : Picks (boundarySelector t s k) (s.parentIdx[k]?.getD []) := by
  have hd : boundarySelector t s k = selectionMatrix
      (assign (List.replicate (t.nElements k) (0 : Int)) (s.parentIdx[k]?.getD []) 1) := by
    unfold boundarySelector
    cases s.parentIdx[k]? <;> rfl
  have hf : flatnonzero (assign (List.replicate (t.nElements k) (0 : Int)) (s.parentIdx[k]?.getD []) 1) =
      (List.range (t.nElements k)).filter fun c => c ∈ s.parentIdx[k]?.getD [] := by
    unfold flatnonzero
    rw [assign_length, List.length_replicate]
    apply List.filter_congr
    intro c hc
    have hc' := List.mem_range.1 hc
    rw [assign_getElem _ _ _ _ (by simpa using hc')]
    by_cases h : c ∈ s.parentIdx[k]?.getD [] <;> simp [h, hc']
  have hs : (s.parentIdx[k]?.getD []).Pairwise (· < ·) := by
    cases hP : s.parentIdx[k]? with
    | none => exact List.Pairwise.nil
    | some P => exact hord P (List.mem_of_getElem? hP)
  have he : ((List.range (t.nElements k)).filter fun c => c ∈ s.parentIdx[k]?.getD []) = s.parentIdx[k]?.getD [] := by
    apply List.Perm.eq_of_pairwise' (r := (· < ·))
    · exact List.Pairwise.filter _ List.pairwise_lt_range
    · exact hs
    · rw [List.perm_ext_iff_of_nodup (List.nodup_range.filter _) (hs.imp fun h => Nat.ne_of_lt h)]
      intro c
      simp only [List.mem_filter, List.mem_range, decide_eq_true_eq]
      exact ⟨fun h => h.2, fun h => ⟨hlt c h, h⟩⟩
  rw [hd]
  have := picks_selectionMatrix (assign (List.replicate (t.nElements k) (0 : Int)) (s.parentIdx[k]?.getD []) 1)
  rwa [hf, he] at this

theorem closed_reverse (t : Topo) : ((List.range t.boundary.length).map (closedDualMatrix t)).reverse =
    t.matrices.reverse.map Mat.transpose := by
  unfold Topo.matrices
  rw [List.map_reverse, List.map_map]
  rfl

/-- the operators of the closed dual in terms of those accumulated from the top -/
theorem closed_accumulated {t : Topo} {L : List (Mat Int)} (h : accumulatedOperatorsN t.matrices = .ok L) :
    accumulatedOperators0 ((List.range t.boundary.length).map (closedDualMatrix t)).reverse = .ok L.reverse := by
  rw [accumulatedN_eq, ← closed_reverse] at h
  cases hq : accumulatedOperators0 ((List.range t.boundary.length).map (closedDualMatrix t)).reverse with
  | error e => rw [hq] at h; simp [Except.map] at h
  | ok L' =>
    rw [hq] at h
    have := Except.ok.inj h
    rw [← this, List.reverse_reverse]

section

variable {m : Nat} {simplices : List (List Nat)} {t : Topo} {s : Sub}

open WF (corners)

/-- corners of a boundary element and of its parent -/
theorem SubOK.at_parent {rows : List (List Nat)} {n : Nat} (hok : SubOK n t rows s) {k q p : Nat} (hk : k ≤ n)
    (hq : (s.parentIdx[k]?.getD [])[q]? = some p) :
    q < s.topo.nElements k ∧ p < t.nElements k ∧ (corners t k p).Perm ((corners s.topo k q).map (back rows)) := by
  obtain ⟨P, hP, hlen, hidx⟩ := hok.idx k hk
  rw [hP, Option.getD_some] at hq
  have hql : q < s.topo.nElements k := by
    rw [← hlen]
    exact (List.getElem?_eq_some_iff.1 hq).1
  obtain ⟨p', e', h1, h2, h3⟩ := hidx q _ (WF.corners_get hql)
  obtain rfl := Option.some.inj (hq.symm.trans h1)
  refine ⟨hql, (List.getElem?_eq_some_iff.1 h2).1, ?_⟩
  have : corners t k p = e' := by
    unfold WF.corners
    rw [h2, Option.getD_some]
  rw [this]
  exact h3

theorem SubOK.subset_iff {rows : List (List Nat)} {n : Nat} (hok : SubOK n t rows s) {k j q p r a : Nat} (hk : k ≤ n)
    (hj : j ≤ n) (hq : (s.parentIdx[k]?.getD [])[q]? = some p) (hr : (s.parentIdx[j]?.getD [])[r]? = some a) :
    corners t k p ⊆ corners t j a ↔ corners s.topo k q ⊆ corners s.topo j r := by
  obtain ⟨h1, -, h2⟩ := hok.at_parent hk hq
  obtain ⟨h3, -, h4⟩ := hok.at_parent hj hr
  have hb : ∀ v ∈ corners s.topo k q, fresh rows (back rows v) = v := fun v hv =>
    fresh_back rows (hok.bound k hk _ (List.mem_of_getElem? (WF.corners_get h1)) v hv)
  have hb' : ∀ v ∈ corners s.topo j r, fresh rows (back rows v) = v := fun v hv =>
    fresh_back rows (hok.bound j hj _ (List.mem_of_getElem? (WF.corners_get h3)) v hv)
  constructor
  · intro h v hv
    have : back rows v ∈ corners t k p := h2.mem_iff.2 (List.mem_map_of_mem hv)
    obtain ⟨w, hw, hwv⟩ := List.mem_map.1 (h4.mem_iff.1 (h this))
    rw [← hb v hv, ← hwv, hb' w hw]
    exact hw
  · intro h v hv
    obtain ⟨w, hw, rfl⟩ := List.mem_map.1 (h2.mem_iff.1 hv)
    exact h4.mem_iff.2 (List.mem_map_of_mem (h hw))

variable (wf : WF (m + 2) simplices t) (hs : Simplices (m + 3) simplices) (hok : SubOK (m + 1) t (bRows t) s)
include wf hs hok

theorem bRows_simplices : Simplices (m + 2) (bRows t) := fun r hr =>
  (wf.get (k := m) (by omega)).2.1 r (bRows_mem wf r hr)

/-- elements of boundary elements are boundary elements -/
theorem parents_closed {k j a p : Nat} (hk : k ≤ m + 1) (hj : j ≤ m + 1) (ha : a < t.nElements k) (hp : p ∈ s.parentIdx[j]?.getD [])
    (h : corners t k a ⊆ corners t j p) : a ∈ s.parentIdx[k]?.getD [] := by
  obtain ⟨q, hq⟩ := List.mem_iff_getElem?.1 hp
  obtain ⟨-, hpl, -⟩ := hok.at_parent hj hq
  rw [mem_parents wf hok (bRows_mem wf) hk (WF.corners_get ha)]
  obtain ⟨r, hr, hsub⟩ := (mem_parents wf hok (bRows_mem wf) hj (WF.corners_get hpl)).1 hp
  exact ⟨r, hr, (List.subperm_of_subset (wf.corners_simplex hs (by omega) ha).2 h).trans hsub⟩

/-- the mesh and its boundary fit together -/
theorem glued_simplicial (hord : InOrder s.parentIdx) : Glued (m + 1) t s := by
  have hsn := relabel_simplices _ (bRows_simplices wf hs hok)
  refine ⟨wf.lenB, fun k hk => (wf.shape (by omega)).1, fun k hk => (wf.shape (by omega)).2, hok.wf.lenB,
    fun k hk => (hok.wf.shape hk).1, fun k hk => (hok.wf.shape hk).2, fun k hk => ?_, fun k hk => ?_, ?_⟩
  · refine selector_picks (fun c hc => ?_) hord
    obtain ⟨q, hq⟩ := List.mem_iff_getElem?.1 hc
    exact (hok.at_parent hk hq).2.1
  · obtain ⟨P, hP, hlen, -⟩ := hok.idx k hk
    rw [hP]
    exact hlen
  · intro k hk a ha q p hp
    obtain ⟨hql, hpl, -⟩ := hok.at_parent (k := k + 1) (by omega) hp
    rw [wf.abs_entry hs (by omega) ha hpl]
    have hpk : Picks (boundarySelector t s k) (s.parentIdx[k]?.getD []) := by
      refine selector_picks (fun c hc => ?_) hord
      obtain ⟨q, hq⟩ := List.mem_iff_getElem?.1 hc
      exact (hok.at_parent (by omega) hq).2.1
    by_cases hm : a ∈ s.parentIdx[k]?.getD []
    · obtain ⟨r, hr⟩ := List.mem_iff_getElem?.1 hm
      have hrl := (hok.at_parent (k := k) (by omega) hr).1
      rw [Finset.sum_eq_single r]
      · rw [if_pos hr, one_mul, hok.wf.abs_entry hsn hk hrl hql]
        simp only [hok.subset_iff (by omega) (by omega) hr hp]
      · intro r' _ hne
        rw [if_neg, zero_mul]
        intro h
        obtain ⟨h1, h2⟩ := List.getElem?_eq_some_iff.1 h
        obtain ⟨h3, h4⟩ := List.getElem?_eq_some_iff.1 hr
        exact hne ((List.Nodup.getElem_inj_iff hpk.1).1 (h2.trans h4.symm))
      · intro h
        rw [Finset.mem_range] at h
        omega
    · rw [if_neg, Finset.sum_eq_zero]
      · intro r _
        rw [if_neg, zero_mul]
        exact fun h => hm (List.mem_of_getElem? h)
      · exact fun h => hm (parents_closed wf hs hok (by omega) (j := k + 1) (by omega) ha (List.mem_of_getElem? hp) h)

/-- the boundary faces, in the numbering of the mesh -/
theorem top_parent {r : Nat} (hr : r < s.topo.nElements (m + 1)) :
    ∃ p, (s.parentIdx[m + 1]?.getD [])[r]? = some p ∧ corners t (m + 1) p = (bRows t)[r]?.getD [] := by
  have hlt : ∀ i ∈ bIdx t, i < t.nElements (m + 1) := by
    intro i hi
    rw [bIdx_eq wf] at hi
    exact List.mem_range.1 (List.mem_filter.1 hi).1
  have htop := hok.idx_top wf (wf.get (k := m + 1) (by omega)).2.2.1 hlt (bRows_eq wf)
  have hn : s.topo.nElements (m + 1) = (bIdx t).length := by
    unfold Topo.nElements
    rw [hok.wf.top_eq, Option.getD_some, relabel_rows, List.length_map, bRows_eq wf, List.length_map]
  have hrl : r < (bIdx t).length := by omega
  refine ⟨(bIdx t)[r], by rw [htop, Option.getD_some, List.getElem?_eq_getElem hrl], ?_⟩
  rw [bRows_eq wf, List.getElem?_map, List.getElem?_eq_getElem hrl]
  rfl

theorem simplicial_means {K : Type} [Field K] [CharZero K] (hord : InOrder s.parentIdx) :
    s.topo.nElements (m + 1) = (bRows t).length ∧
    ∃ L : List (Mat K), averagingOperators0 ((List.range (m + 2)).map (Glued.block t s)).reverse = .ok L ∧ L.length = m + 3 ∧
      (∃ A, L[0]? = some A ∧ A.rows = simplices.length + (bRows t).length ∧ A.cols = A.rows ∧
        ∀ i < A.rows, ∀ x : Nat → K, ((List.range A.cols).map fun j => A.entry i j * x j).sum = x i) ∧
      ∀ d k, d + 1 + k = m + 2 → ∃ A, L[d + 1]? = some A ∧ A.rows = t.nElements k + Glued.nB s k ∧
        A.cols = simplices.length + (bRows t).length ∧
        (∀ c < t.nElements k, ∀ x : Nat → K, ((List.range A.cols).map fun j => A.entry c j * x j).sum =
          Glued.weight K (d + 1) * mean (dualCell simplices (bRows t) (corners t k c) x)) ∧
        (∀ j q p : Nat, k = j + 1 → (s.parentIdx[j]?.getD [])[q]? = some p → ∀ x : Nat → K,
          ((List.range A.cols).map fun j => A.entry (t.nElements k + q) j * x j).sum =
          Glued.weight K (d + 1) * mean (boundaryCell simplices (bRows t) (corners t j p) x)) := by
  have hsn := relabel_simplices _ (bRows_simplices wf hs hok)
  have g := glued_simplicial wf hs hok hord
  have hnF : s.topo.nElements (m + 1) = (bRows t).length := by
    unfold Topo.nElements
    rw [hok.wf.top_eq, Option.getD_some, relabel_rows, List.length_map]
  have hnT : t.nElements (m + 2) = simplices.length := by
    unfold Topo.nElements; rw [wf.top_eq]; rfl
  obtain ⟨LX, x1, x2, -, x4⟩ := wf.accumulatedN hs (by omega)
  obtain ⟨LW, w1, w2, ⟨W0, w3, -, -, w5⟩, w4⟩ := hok.wf.accumulatedN hsn (by omega)
  have hX := closed_accumulated x1
  have hW := closed_accumulated w1
  rw [wf.lenB] at hX
  rw [hok.wf.lenB] at hW
  have hcorner : ∀ r, corners t (m + 2) r = simplices[r]?.getD [] := by
    intro r
    unfold WF.corners; rw [wf.top_eq, Option.getD_some]
  obtain ⟨L, l1, l2, l3, l4⟩ := g.average (K := K)
    (fun k c r => (corners t k c).all fun v => (simplices[r]?.getD []).contains v)
    (fun k c r => (corners t k c).all fun v => ((bRows t)[r]?.getD []).contains v) hX hW
    (by
      intro d k hk X hXd r hr c hc
      obtain ⟨A, a1, a2, a3, a4⟩ := x4 k (by omega)
      rw [List.getElem?_reverse (by omega), x2, show m + 2 + 1 - 1 - (d + 1) = k by omega, a1] at hXd
      obtain rfl := Option.some.inj hXd
      rw [a4 r hr c hc, show m + 2 - k = d + 1 by omega, hcorner]
      simp only [List.all_eq_true, List.contains_iff_mem]
      rfl)
    (by
      intro d k hk W hWd r hr q p hq
      obtain ⟨hql, hpl, -⟩ := hok.at_parent (by omega) hq
      obtain ⟨a, ha1, ha2⟩ := top_parent wf hs hok hr
      rw [← ha2]
      have hsub := hok.subset_iff (by omega) (by omega) hq ha1
      rw [List.getElem?_reverse (by omega), w2, show m + 1 + 1 - 1 - d = k by omega] at hWd
      have hrw : (((corners t k p).all fun v => (corners t (m + 1) a).contains v) = true) ↔ corners t k p ⊆ corners t (m + 1) a := by
        simp only [List.all_eq_true, List.contains_iff_mem]
        rfl
      simp only [hrw]
      rcases Nat.lt_or_ge k (m + 1) with hlt | hge
      · obtain ⟨A, a1, a2, a3, a4⟩ := w4 k hlt
        rw [a1] at hWd
        obtain rfl := Option.some.inj hWd
        rw [a4 r hr q hql, show m + 1 - k = d by omega]
        simp only [hsub]
      · obtain rfl : k = m + 1 := by omega
        obtain rfl : d = 0 := by omega
        rw [w3] at hWd
        obtain rfl := Option.some.inj hWd
        rw [w5]
        have hiff : r = q ↔ corners t (m + 1) p ⊆ corners t (m + 1) a := by
          constructor
          · rintro rfl
            rw [Option.some.inj (hq.symm.trans ha1)]
            exact List.Subset.refl _
          · intro h
            have h1 := wf.corners_simplex hs (by omega) hpl
            have h2 := wf.corners_simplex hs (by omega) (hok.at_parent (k := m + 1) (by omega) ha1).2.1
            have hperm : (corners t (m + 1) p).Perm (corners t (m + 1) a) :=
              (List.subperm_of_subset h1.2 h).perm_of_length_le (by rw [h1.1, h2.1])
            have hpa : p = a := distinct_index (wf.get (k := m + 1) (by omega)).2.2.1 (WF.corners_get hpl)
              (WF.corners_get (hok.at_parent (k := m + 1) (by omega) ha1).2.1) hperm
            subst hpa
            obtain ⟨h3, h4⟩ := List.getElem?_eq_some_iff.1 hq
            obtain ⟨h5, h6⟩ := List.getElem?_eq_some_iff.1 ha1
            exact (List.Nodup.getElem_inj_iff (g.picks (m + 1) (by omega)).1).1 (h6.trans h4.symm)
        simp only [hiff, Nat.factorial_zero, Nat.cast_one]
        split <;> rfl)
    (by
      intro k hk c hc r hr hV
      obtain ⟨a, ha1, ha2⟩ := top_parent wf hs hok hr
      refine parents_closed wf hs hok hk (j := m + 1) (by omega) hc (List.mem_of_getElem? ha1) ?_
      rw [ha2]
      have hV' : ∀ v ∈ corners t k c, v ∈ (bRows t)[r]?.getD [] := by
        simpa only [List.all_eq_true, List.contains_iff_mem] using hV
      exact fun v hv => hV' v hv)
  rw [hnF, hnT] at l3 l4
  exact ⟨hnF, L, l1, l2, l3, l4⟩

end

end Verif
