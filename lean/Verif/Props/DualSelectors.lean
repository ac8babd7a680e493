/-
C92: the selectors of the dual and `matrices_2`.
-/
import Verif.Model.DualSelectors
import Verif.Spec.DualSelectors
import Verif.Props.DualAveraging
import Verif.Props.DualPosition
import Verif.Lemmas.ProductChain
import Verif.Lemmas.SmoothOperator

set_option linter.unusedSectionVars false

namespace Verif.Props

open Verif Verif.Model Verif.Spec

variable {K : Type} [Field K] {t : Topo} {s : Sub} {n : Nat} {uniq : List (List Nat) → List (List Nat)}
  {solve : List (List Int) → Option (List Int)}

/-- the only term of a sum that is not zero -/
theorem pick_sum {R : Type} [Ring R] (m a : Nat) (x : Nat → R) :
    ((List.range m).map fun j => (((if a = j then 1 else 0 : ℤ)) : R) * x j).sum = if a < m then x a else 0 := by
  induction m with
  | zero => simp
  | succ m ih =>
    rw [List.range_succ, List.map_append, List.sum_append, ih]
    by_cases h : a = m
    · subst h; simp
    · by_cases h' : a < m
      · simp [h, h', Nat.lt_succ_of_lt h']
      · have : ¬ a < m + 1 := by omega
        simp [h, h', this]

theorem eye_take {p N : Nat} (h : p ≤ N) {x : List K} (hx : x.length = N) : Sends (eyeMat p N) x (x.take p) := by
  refine ⟨hx, by rw [List.length_take, hx]; exact min_eq_left h, fun i hi => ?_⟩
  have hi : i < p := hi
  show _ = some ((List.range N).map fun j => (((if i = j then 1 else 0 : ℤ)) : K) * x[j]?.getD 0).sum
  rw [pick_sum N i fun j => x[j]?.getD 0, if_pos (by omega), List.getElem?_take_of_lt hi, List.getElem?_eq_getElem (by omega)]
  rfl

theorem eye_drop {p N : Nat} (h : p ≤ N) {x : List K} (hx : x.length = N) : Sends (dropRows (eyeMat N N) p) x (x.drop p) := by
  refine ⟨hx, by rw [List.length_drop, hx]; rfl, fun i hi => ?_⟩
  have hi : i < N - p := hi
  show _ = some ((List.range N).map fun j => (((if p + i = j then 1 else 0 : ℤ)) : K) * x[j]?.getD 0).sum
  rw [pick_sum N (p + i) fun j => x[j]?.getD 0, if_pos (by omega), List.getElem?_drop, List.getElem?_eq_getElem (by omega)]
  rfl

theorem eye_pad {p N : Nat} (h : p ≤ N) {y : List K} (hy : y.length = p) :
    Sends (eyeMat p N).transpose y (y ++ List.replicate (N - p) 0) := by
  refine ⟨hy, by rw [List.length_append, List.length_replicate, hy]; show p + (N - p) = N; omega, fun i hi => ?_⟩
  have e : ((List.range p).map fun j => (((if j = i then 1 else 0 : ℤ)) : K) * y[j]?.getD 0) =
      (List.range p).map fun j => (((if i = j then 1 else 0 : ℤ)) : K) * y[j]?.getD 0 :=
    List.map_congr_left fun j _ => by simp only [eq_comm]
  show _ = some ((List.range p).map fun j => (((if j = i then 1 else 0 : ℤ)) : K) * y[j]?.getD 0).sum
  have hi : i < N := hi
  rw [e, pick_sum p i fun j => y[j]?.getD 0]
  by_cases hp : i < p
  · rw [if_pos hp, List.getElem?_append_left (by omega), List.getElem?_eq_getElem (by omega)]
    rfl
  · rw [if_neg hp, List.getElem?_append_right (by omega), List.getElem?_replicate, if_pos (by omega)]

theorem eye_pad_front {p N : Nat} (h : p ≤ N) {z : List K} (hz : z.length = N - p) :
    Sends (dropRows (eyeMat N N) p).transpose z (List.replicate p 0 ++ z) := by
  refine ⟨hz, by rw [List.length_append, List.length_replicate, hz]; show p + (N - p) = N; omega, fun i hi => ?_⟩
  show _ = some ((List.range (N - p)).map fun j => (((if p + j = i then 1 else 0 : ℤ)) : K) * z[j]?.getD 0).sum
  have hi : i < N := hi
  by_cases hp : i < p
  · rw [List.getElem?_append_left (by simpa using hp), List.getElem?_replicate, if_pos hp]
    congr 1
    symm
    refine List.sum_eq_zero fun a ha => ?_
    obtain ⟨j, -, rfl⟩ := List.mem_map.1 ha
    rw [if_neg (by omega)]
    simp
  · have e : ((List.range (N - p)).map fun j => (((if p + j = i then 1 else 0 : ℤ)) : K) * z[j]?.getD 0) =
        (List.range (N - p)).map fun j => (((if i - p = j then 1 else 0 : ℤ)) : K) * z[j]?.getD 0 :=
      List.map_congr_left fun j _ => by
        have : (p + j = i) = (i - p = j) := propext (by omega)
        simp only [this]
    rw [e, pick_sum (N - p) (i - p) fun j => z[j]?.getD 0, if_pos (by omega), List.getElem?_append_right (by simp; omega),
      List.length_replicate, List.getElem?_eq_getElem (by omega)]
    rfl

/-- the number of dual boundary elements at the primal level `k` -/
theorem dual_counts (hlen : s.topo.elements.length + 1 = t.elements.length) {k : Nat} (hk : k < t.elements.length) :
    (dualNElements t (some s)).length = t.elements.length ∧
    (dualNElements t (some s)).reverse[k]? = some (t.nElements k + if k = 0 then 0 else s.topo.nElements (k - 1)) := by
  refine ⟨by simp [dualNElements, hlen], ?_⟩
  unfold dualNElements
  rw [List.reverse_reverse, List.getElem?_zipWith, List.getElem?_map, List.getElem?_eq_getElem hk]
  unfold Topo.nElements
  rw [List.getElem?_eq_getElem hk]
  cases k with
  | zero => rfl
  | succ k =>
    rw [List.getElem?_cons_succ, List.getElem?_map, List.getElem?_eq_getElem (by omega)]
    simp only [Nat.add_sub_cancel, Nat.add_one_ne_zero, if_false]
    rw [List.getElem?_eq_getElem (by omega)]
    rfl

/-- C92: on a complex with boundary, `dual.selector_interior[k]` keeps of a dual form the values on the duals of the `k`-elements and
`dual.selector_boundary[k]` the others, those on the duals of the boundary elements; the transposes put them back, with zeros
elsewhere. -/
theorem C92_selectors (hlen : s.topo.elements.length + 1 = t.elements.length) {k : Nat} (hk : k < t.elements.length) :
    ∃ I B N, (dualSelectorInterior t (some s))[k]? = some I ∧ (dualSelectorBoundary t (some s))[k]? = some B ∧
      (dualNElements t (some s))[t.elements.length - 1 - k]? = some N ∧
      N = t.nElements k + (if k = 0 then 0 else s.topo.nElements (k - 1)) ∧
      (∀ x : List K, x.length = N → Sends I x (x.take (t.nElements k)) ∧ Sends B x (x.drop (t.nElements k))) ∧
      (∀ y : List K, y.length = t.nElements k → Sends I.transpose y (y ++ List.replicate (N - t.nElements k) 0)) ∧
      ∀ z : List K, z.length = N - t.nElements k → Sends B.transpose z (List.replicate (t.nElements k) 0 ++ z) := by
  obtain ⟨hl, hN⟩ := dual_counts hlen hk
  have hk' : (t.elements.map List.length)[k]? = some (t.nElements k) := by
    rw [List.getElem?_map, Topo.nElements, List.getElem?_eq_getElem hk]; rfl
  refine ⟨_, _, _, ?_, ?_, ?_, rfl, fun x hx => ⟨eye_take (by omega) hx, eye_drop (by omega) hx⟩,
    fun y hy => eye_pad (by omega) hy, fun z hz => eye_pad_front (by omega) hz⟩
  · unfold dualSelectorInterior
    rw [List.getElem?_zipWith, hk', hN]
  · unfold dualSelectorBoundary
    rw [List.getElem?_zipWith, hk', hN]
  · rw [List.getElem?_reverse (by omega)] at hN
    rw [← hl]
    exact hN

/-- C92: on a closed complex `dual.selector_interior` keeps all values and `dual.selector_boundary` none. -/
theorem C92_selectors_closed {k : Nat} (hk : k < t.elements.length) :
    ∃ I B, (dualSelectorInterior t none)[k]? = some I ∧ (dualSelectorBoundary t none)[k]? = some B ∧
      (dualNElements t none)[t.elements.length - 1 - k]? = some (t.nElements k) ∧
      ∀ x : List K, x.length = t.nElements k → Sends I x x ∧ Sends I.transpose x x ∧ Sends B x [] := by
  have he := List.getElem?_eq_getElem hk
  have hn : t.nElements k = t.elements[k].length := by rw [Topo.nElements, he]; rfl
  refine ⟨_, _, by unfold dualSelectorInterior; rw [List.getElem?_map, he]; rfl,
    by unfold dualSelectorBoundary; rw [List.getElem?_map, he]; rfl, ?_, fun x hx => ?_⟩
  · unfold dualNElements
    rw [List.getElem?_reverse (by simp; omega), List.length_map, show t.elements.length - 1 - (t.elements.length - 1 - k) = k by omega,
      List.getElem?_map, he, hn]
    rfl
  · rw [hn] at hx
    refine ⟨?_, ?_, hx, rfl, fun i hi => absurd hi (Nat.not_lt_zero i)⟩
    · have := eye_take (K := K) le_rfl hx
      rwa [List.take_of_length_le (le_of_eq hx)] at this
    · have := eye_pad (K := K) (p := t.elements[k].length) le_rfl hx
      rwa [Nat.sub_self, List.replicate_zero, List.append_nil] at this

/-- C92: `dual_position` has as many entries as `dual.n_elements` says. -/
theorem C92_positions {α : Type} {pp : List (List α)} (hcor : Corresponds t.elements s.topo.elements s.parentIdx)
    (hlen : s.topo.elements.length + 1 = t.elements.length) (hpp : pp.map List.length = t.elements.map List.length) :
    ∃ dp, dualPosition pp (some s) = .ok dp ∧ dp.map List.length = dualNElements t (some s) := by
  have hl : pp.length = t.elements.length := by simpa using congrArg List.length hpp
  have hf : ∀ j : Nat, (pp[j]?.getD []).length = (t.elements[j]?.getD []).length := by
    intro j
    have := congrArg (fun L : List Nat => L[j]?) hpp
    simp only [List.getElem?_map] at this
    cases h1 : pp[j]? <;> cases h2 : t.elements[j]? <;> rw [h1, h2] at this <;> simp at this ⊢
    exact this
  obtain ⟨dp, g1, g2, g3⟩ := C91_layout (n := s.topo.elements.length) hcor rfl (by omega) hf
  refine ⟨dp, g1, List.ext_getElem? fun d => ?_⟩
  have hnl := (dual_counts hlen (k := 0) (by omega)).1
  by_cases hd : d < t.elements.length
  · obtain ⟨D, a1, a2, -⟩ := g3 (s.topo.elements.length - d) (by omega)
    rw [show s.topo.elements.length - (s.topo.elements.length - d) = d by omega] at a1
    have hN := (dual_counts hlen (k := s.topo.elements.length - d) (by omega)).2
    rw [List.getElem?_reverse (by omega), hnl, show t.elements.length - 1 - (s.topo.elements.length - d) = d by omega] at hN
    rw [hN, List.getElem?_map, a1, Option.map_some, a2]
    rfl
  · rw [List.getElem?_eq_none (by rw [List.length_map]; omega), List.getElem?_eq_none (by omega)]

/-! ### matrices_2 -/

theorem glued_matrices2 {m : Nat} (g : Glued m t s) (hE : t.elements.length = m + 2) (hsE : s.topo.elements.length = m + 1)
    (hent : ∀ k ≤ m, ∀ i < t.nElements k, ∀ j < t.nElements (k + 1),
      (t.matrix k).entry i j = 1 ∨ (t.matrix k).entry i j = -1 ∨ (t.matrix k).entry i j = 0)
    (hor : isOriented solve s.topo = .ok true) :
    ∃ M2, dualMatrices2 solve t (some s) = .ok M2 ∧ M2.length = m + 1 ∧ ∀ d k, d + k = m → ∃ M, M2[d]? = some M ∧
      M.rows = t.nElements (k + 1) + s.topo.nElements k ∧ M.cols = t.nElements k ∧
      ∀ r < M.rows, ∀ c < t.nElements k, M.entry r c = (Glued.block t s k).entry r c := by
  have hS : ∀ d k, d + k = m → (dualSelectorInterior t (some s)).reverse.tail[d]? =
      some (eyeMat (t.nElements k) (t.nElements k + Glued.nB s k)) := by
    intro d k hdk
    obtain ⟨hl, hN⟩ := dual_counts (t := t) (s := s) (by omega) (k := k) (by omega)
    have hlen : (dualSelectorInterior t (some s)).length = m + 2 := by
      unfold dualSelectorInterior
      simp [hl, hE]
    rw [List.getElem?_tail, List.getElem?_reverse (by omega), hlen, show m + 2 - 1 - (d + 1) = k by omega]
    unfold dualSelectorInterior
    rw [List.getElem?_zipWith, hN, List.getElem?_map]
    unfold Topo.nElements Glued.nB
    rw [List.getElem?_eq_getElem (by omega)]
    rfl
  have hSl : (dualSelectorInterior t (some s)).reverse.tail.length = m + 1 := by
    obtain ⟨hl, -⟩ := dual_counts (t := t) (s := s) (by omega) (k := 0) (by omega)
    unfold dualSelectorInterior
    simp [hl, hE]
  obtain ⟨M2, h1, h2, h3⟩ := mapM_levels (fun ms : Mat Int × Mat Int => mul8 ms.1 ms.2.transpose)
    (l := (((List.range (m + 1)).map (Glued.block t s)).reverse).zip (dualSelectorInterior t (some s)).reverse.tail) (m := m + 1)
    (by rw [List.length_zip, hSl]; simp)
    (P := fun d M => M.rows = t.nElements (m - d + 1) + s.topo.nElements (m - d) ∧ M.cols = t.nElements (m - d) ∧
      ∀ r < M.rows, ∀ c < t.nElements (m - d), M.entry r c = (Glued.block t s (m - d)).entry r c) (by
    intro d hd
    refine ⟨(Glued.block t s (m - d), eyeMat (t.nElements (m - d)) (t.nElements (m - d) + Glued.nB s (m - d))), _, ?_,
      mul8_ok rfl, rfl, rfl, fun r hr c hc => ?_⟩
    · rw [List.getElem?_zip_eq_some]
      exact ⟨Glued.blocks_get (by omega) t s, hS d (m - d) (by omega)⟩
    · have hr : r < t.nElements (m - d + 1) + s.topo.nElements (m - d) := hr
      show wrap8 ((List.range (t.nElements (m - d) + Glued.nB s (m - d))).map fun q =>
        (Glued.block t s (m - d)).entry r q * (if c = q then 1 else 0)).sum = _
      have e : ((List.range (t.nElements (m - d) + Glued.nB s (m - d))).map fun q =>
          (Glued.block t s (m - d)).entry r q * (if c = q then 1 else 0)) =
          (List.range (t.nElements (m - d) + Glued.nB s (m - d))).map fun q =>
            (((if c = q then 1 else 0 : ℤ)) : ℤ) * (Glued.block t s (m - d)).entry r q :=
        List.map_congr_left fun q _ => mul_comm _ _
      have ps := pick_sum (R := ℤ) (t.nElements (m - d) + Glued.nB s (m - d)) c fun q => (Glued.block t s (m - d)).entry r q
      simp only [Int.cast_id] at ps
      rw [e, ps, if_pos (by omega)]
      have hb : (Glued.block t s (m - d)).entry r c = 1 ∨ (Glued.block t s (m - d)).entry r c = -1 ∨
          (Glued.block t s (m - d)).entry r c = 0 := by
        simp only [Glued.block, if_pos hc]
        split
        · next h => exact hent (m - d) (by omega) c hc r h
        · split
          · exact .inl rfl
          · exact .inr (.inr rfl)
      rcases hb with h | h | h <;> rw [h] <;> rfl)
  refine ⟨M2, ?_, h2, fun d k hdk => ?_⟩
  · unfold dualMatrices2
    simp only [bind, Except.bind, g.matrices_eq hor]
    exact h1
  · obtain ⟨M, q1, q2⟩ := h3 d (by omega)
    rw [show m - d = k by omega] at q2
    exact ⟨M, q1, q2⟩

theorem glued_spec {m : Nat} {M2 : List (Mat Int)} (h2 : M2.length = m + 1) (h : ∀ d k, d + k = m → ∃ M, M2[d]? = some M ∧
      M.rows = t.nElements (k + 1) + s.topo.nElements k ∧ M.cols = t.nElements k ∧
      ∀ r < M.rows, ∀ c < t.nElements k, M.entry r c = (Glued.block t s k).entry r c) : Matrices2 m t s M2 := by
  refine ⟨h2, fun d k hdk => ?_⟩
  obtain ⟨M, h1, h2, h3, h4⟩ := h d k hdk
  refine ⟨M, h1, h2, h3, fun c hc r hr => ?_, fun c hc i hi => ?_⟩
  · rw [h4 r (by omega) c hc]
    simp only [Glued.block, if_pos hc, if_pos hr]
  · rw [h4 _ (by omega) c hc]
    simp only [Glued.block, if_pos hc, if_neg (show ¬ t.nElements (k + 1) + i < t.nElements (k + 1) by omega), Nat.add_sub_cancel_left]

/-- C92: on an oriented simplicial complex with boundary `matrices_2` exists whenever `matrices` does. Its matrices have a column
for every primal element, a row for every dual element, and hold the incidence of the primal elements and, below it, which of
them is which boundary element. -/
theorem C92_matrices_2 {simplices : List (List Nat)} (hu : UniqSpec uniq) (hs : Simplices (n + 3) simplices)
    (h : fromSimplices uniq (n + 3) simplices = .ok t) (hb : boundary solve uniq t = .ok (some s)) {ms : List (Mat Int)}
    (hd : simplicialDual solve uniq t = .ok ms) (hord : InOrder s.parentIdx) :
    ∃ M2, dualMatrices2 solve t (some s) = .ok M2 ∧ Matrices2 (n + 1) t s M2 := by
  have hor := oriented_of_boundary hb
  obtain ⟨hor', hms⟩ := oriented_of_dual hb hd
  obtain ⟨wf, hok⟩ := boundary_sub hu hs h hor hb
  obtain ⟨M2, h1, h2, h3⟩ := glued_matrices2 (glued_simplicial wf hs hok hord) wf.lenE hok.wf.lenE
    (fun k hk i hi j hj => (C05_entry_nonzero_iff hu hs h k (by omega) i j _ _
      (List.getElem?_eq_getElem (show i < (t.elements[k]?.getD []).length from hi))
      (List.getElem?_eq_getElem (show j < (t.elements[k + 1]?.getD []).length from hj))).1) hor'
  exact ⟨M2, h1, glued_spec h2 h3⟩

/-- C92: the same for cubical complexes. -/
theorem C92_matrices_2_cubes {cubes : List (List Nat)} (hu : UniqSpec uniq) (hc : Cubes (n + 2) cubes)
    (h : fromCubes uniq true (n + 2) cubes = .ok t) (hb : cubicalBoundary solve uniq t = .ok (some s)) {ms : List (Mat Int)}
    (hd : cubicalDual solve uniq t = .ok ms) (hord : InOrder s.parentIdx) :
    ∃ M2, dualMatrices2 solve t (some s) = .ok M2 ∧ Matrices2 (n + 1) t s M2 := by
  obtain ⟨hor', hms⟩ := cubes_oriented_of_dual hb hd
  have wf := fromCubes_wf hu hc h
  have hok := cubes_boundary_sub hu hc h hb
  obtain ⟨M2, h1, h2, h3⟩ := glued_matrices2 (glued_cubical wf hc hok hord) wf.lenE hok.wf.lenE
    (fun k hk i hi j hj => by
      by_cases h0 : (t.matrix k).entry i j = 0
      · exact .inr (.inr h0)
      · rcases cube_entry_pm hu hc h (by omega) hi hj h0 with h | h
        · exact .inl h
        · exact .inr (.inl h)) hor'
  exact ⟨M2, h1, glued_spec h2 h3⟩

/-- C92: on a closed complex `matrices_2` is `matrices`. -/
theorem C92_closed : dualMatrices2 solve t none = dualMatrices solve t none := by
  unfold dualMatrices2
  cases dualMatrices solve t none <;> rfl

/-- C92: the transpose of `matrices_2[0]` is a gradient: on every face of the mesh it takes the difference of the values at the two
ends of the dual edge, which are simplices or boundary faces. -/
theorem C92_gradient {simplices : List (List Nat)} (hu : UniqSpec uniq) (hs : Simplices (n + 3) simplices) (hsat : SatSpec solve)
    (h : fromSimplices uniq (n + 3) simplices = .ok t) (h2 : AtMostTwo simplices) (hb : boundary solve uniq t = .ok (some s))
    {ms : List (Mat Int)} (hd : simplicialDual solve uniq t = .ok ms) (hord : InOrder s.parentIdx) :
    ∃ M2 M, dualMatrices2 solve t (some s) = .ok M2 ∧ M2[0]? = some M ∧ M.cols = t.nElements (n + 1) ∧
      M.rows = simplices.length + s.topo.nElements (n + 1) ∧ ∀ c < M.cols, ∃ r1 < M.rows, ∃ r2 < M.rows, r1 ≠ r2 ∧
        ∀ x : Nat → K, ((List.range M.rows).map fun r => (M.entry r c : K) * x r).sum = x r1 - x r2 := by
  have hor := oriented_of_boundary hb
  obtain ⟨hor', hms⟩ := oriented_of_dual hb hd
  obtain ⟨wf, hok⟩ := boundary_sub hu hs h hor hb
  have g := glued_simplicial wf hs hok hord
  obtain ⟨M2, h1, hl, h3⟩ := glued_matrices2 g wf.lenE hok.wf.lenE
    (fun k hk i hi j hj => (C05_entry_nonzero_iff hu hs h k (by omega) i j _ _
      (List.getElem?_eq_getElem (show i < (t.elements[k]?.getD []).length from hi))
      (List.getElem?_eq_getElem (show j < (t.elements[k + 1]?.getD []).length from hj))).1) hor'
  obtain ⟨M, m1, m2, m3, m4⟩ := h3 0 (n + 1) (by omega)
  obtain ⟨D, d1, d2⟩ := C12_dual_edge_two_ends hu hs hsat h h2 hb
  have hD : D = Glued.block t s (n + 1) := by
    have : dualMatrix solve uniq t s (n + 1) = gluedMatrix t s (n + 1) := by
      unfold dualMatrix gluedMatrix selectorBoundary boundarySelector boundaryIndices
      rw [hb]
      rfl
    rw [this, g.matrix_eq le_rfl] at d1
    exact (Except.ok.inj d1).symm
  have hr : D.rows = M.rows := by rw [hD, m2]; rfl
  have hN : t.nElements (n + 2) = simplices.length := by
    unfold Topo.nElements
    rw [wf.top_eq]
    rfl
  refine ⟨M2, M, h1, m1, m3, by rw [m2, hN], fun c hc => ?_⟩
  rw [m3] at hc
  obtain ⟨r1, k1, r2, k2, hne, e1, e2, e0⟩ := d2 c hc
  rw [hr] at k1 k2 e0
  refine ⟨r1, k1, r2, k2, hne, fun x => ?_⟩
  have hent : ∀ r < M.rows, M.entry r c = (if r1 = r then 1 else 0) - (if r2 = r then 1 else 0) := by
    intro r hr'
    rw [m4 r hr' c hc, ← hD]
    by_cases q1 : r1 = r
    · subst q1; rw [e1, if_pos rfl, if_neg (Ne.symm hne)]; rfl
    · by_cases q2 : r2 = r
      · subst q2; rw [e2, if_neg q1, if_pos rfl]; rfl
      · rw [e0 r hr' (Ne.symm q1) (Ne.symm q2), if_neg q1, if_neg q2]; rfl
  have hsum : ((List.range M.rows).map fun r => (M.entry r c : K) * x r) = (List.range M.rows).map fun r =>
      (((if r1 = r then 1 else 0 : ℤ)) : K) * x r - (((if r2 = r then 1 else 0 : ℤ)) : K) * x r :=
    List.map_congr_left fun r hr' => by rw [hent r (List.mem_range.1 hr'), Int.cast_sub, sub_mul]
  have hsub : ∀ (L : List Nat) (f f' : Nat → K), (L.map fun r => f r - f' r).sum = (L.map f).sum - (L.map f').sum := by
    intro L f f'
    induction L with
    | nil => simp
    | cons a L ih =>
      simp only [List.map_cons, List.sum_cons, ih]
      exact sub_add_sub_comm ..
  rw [hsum, hsub, pick_sum, pick_sum, if_pos k1, if_pos k2]

/-- C92, a case: two tetrahedra on a common face meet the hypotheses; the first of three matrices has two and six rows. -/
theorem C92_case (hsat : SatSpec solve) : ∃ t s M2 M, fromSimplices lexRows 4 twoTets = .ok t ∧
    boundary solve lexRows t = .ok (some s) ∧ dualMatrices2 solve t (some s) = .ok M2 ∧ M2.length = 3 ∧ M2[0]? = some M ∧
    M.rows = 8 ∧ (dualNElements t (some s))[0]? = some 8 ∧ ∀ c < M.cols, ∃ r1 < 8, ∃ r2 < 8, r1 ≠ r2 ∧
      ∀ x : Nat → ℚ, ((List.range M.rows).map fun r => (M.entry r c : ℚ) * x r).sum = x r1 - x r2 := by
  obtain ⟨t, s, ms, hu, -, hs, hf, h2, hb, h6, hord, hd⟩ := C83_case hsat
  obtain ⟨M2, M, q1, q2, q3, q4, q5⟩ := C92_gradient (K := ℚ) (n := 1) hu hs hsat hf h2 hb hd hord
  obtain ⟨M2', p1, p2, p3⟩ := C92_matrices_2 (n := 1) hu hs hf hb hd hord
  rw [q1] at p1
  obtain rfl := Except.ok.inj p1
  have h8 : M.rows = 8 := by rw [q4, h6]; rfl
  obtain ⟨wf, hok⟩ := boundary_sub hu hs hf (oriented_of_boundary hb) hb
  obtain ⟨-, -, N, -, -, hN, hN', -⟩ := C92_selectors (K := ℚ) (t := t) (s := s) (by rw [wf.lenE, hok.wf.lenE]) (k := 3)
    (by rw [wf.lenE]; norm_num)
  have h3 : t.nElements 3 = 2 := by
    unfold Topo.nElements
    rw [wf.top_eq]
    rfl
  rw [wf.lenE] at hN
  refine ⟨t, s, M2, M, hf, hb, q1, p2, q2, h8, ?_, fun c hc => ?_⟩
  · rw [show (0 : Nat) = 1 + 2 + 1 - 1 - 3 from rfl, hN, hN', h3, if_neg (by norm_num), h6]
  · rw [← h8]
    exact q5 c hc

end Verif.Props
